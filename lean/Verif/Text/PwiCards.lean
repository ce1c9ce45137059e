import Verif.Text.PwiRead

/-!
# C122: input files of `pw.x`, cards
-/

namespace Verif.Pwi

open Verif.Text Verif.Namelist

/-! ### Data that can be written -/

/-- Rounded positions. -/
def Pos.round : Pos → Pos
  | .cart l => .cart (l.map round9)
  | .sg l => .sg l

/-- Rounded points. -/
def KPoints.round : KPoints → KPoints
  | .list nks l => .list nks (l.map round9)
  | k => k

/-- Positions match atoms and units. -/
def PosOk (coords : Str) (at_ : List Str) : Pos → Prop
  | .cart l => has (tx "crystal_sg") coords = false ∧ l.length = at_.length
  | .sg l => has (tx "crystal_sg") coords = true ∧ l.length = at_.length ∧ ∀ x ∈ l, Word x

/-- Points match their kind. -/
def KOk (ktyp : Str) : KPoints → Prop
  | .automatic l => has (tx "automatic") ktyp = true ∧ l.length = 6
  | .gamma => has (tx "automatic") ktyp = false ∧ has (tx "gamma") ktyp = true
  | .list nks l => has (tx "automatic") ktyp = false ∧ has (tx "gamma") ktyp = false ∧ nks = l.length

/-! ### Lines of cards -/

/-- Lines with positions. -/
def posLines (at_ : List Str) : Pos → List (List Field)
  | .cart l => (at_.zip l).map fun x => posFields x.1 x.2
  | .sg l => (at_.zip l).map fun x => sgFields x.1 x.2

/-- Lines with points. -/
def kLines : KPoints → List (List Field)
  | .automatic [a, b, c, d, e, f] => [[fInt 0 0 a, fInt 1 0 b, fInt 1 0 c, fInt 1 0 d, fInt 1 0 e, fInt 1 0 f]]
  | .automatic _ => []
  | .gamma => []
  | .list nks l => [fInt 0 0 nks] :: l.map kFields

/-- Lines of the card with points. -/
def kCard : Option (Str × KPoints) → List (List Field)
  | some (ktyp, k) => [] :: [fWord 0 0 (tx "K_POINTS"), fWord 1 0 ktyp] :: kLines k
  | none => []

/-- Lines of the card with the cell. -/
def cellCard : Option (Str × (Fin 3 → Fin 3 → ℚ)) → List (List Field)
  | some (u, r) => [[], [fWord 0 0 (tx "CELL_PARAMETERS"), fWord 1 0 u], cellFields (r 0), cellFields (r 1), cellFields (r 2)]
  | none => []

theorem writePos_lines (at_ : List Str) (r : Pos) : writePos at_ r = (posLines at_ r).flatMap line := by
  cases r <;> simp [writePos, posLines, List.flatMap_map]

theorem writeK_lines (ktyp : Str) (k : KPoints) (h : KOk ktyp k) :
    writeK ktyp k = (kCard (some (ktyp, k))).flatMap line := by
  have e : ∀ s, '\n' :: s = line [] ++ s := fun s => rfl
  unfold writeK
  rw [e]
  match k, h with
  | .automatic [a, b, c, d, e, f], h => rw [if_pos h.1]; simp [kCard, kLines, List.append_assoc]
  | .gamma, h => rw [if_neg (by simp [h.1]), if_pos h.2]; simp [kCard, kLines, List.append_assoc]
  | .list nks l, h =>
    rw [if_neg (by simp [h.1]), if_neg (by simp [h.2.1])]
    simp [kCard, kLines, List.append_assoc, List.flatMap_map]

theorem writeCell_lines (u : Str) (r : Fin 3 → Fin 3 → ℚ) : writeCell u r = (cellCard (some (u, r))).flatMap line := by
  have e : ∀ s, '\n' :: s = line [] ++ s := fun s => rfl
  unfold writeCell
  rw [e]
  simp [cellCard, List.append_assoc]

/-- All lines of cards. -/
def cardLines (rg : ℚ → Str) (species : List (Str × ℚ × Str)) (coords : Str) (at_ : List Str) (r : Pos)
    (k : Option (Str × KPoints)) (cell : Option (Str × (Fin 3 → Fin 3 → ℚ))) : List (List Field) :=
  [fWord 0 0 (tx "ATOMIC_SPECIES")] :: (species.map (speciesFields rg) ++ [] ::
    [fWord 0 0 (tx "ATOMIC_POSITIONS"), fWord 1 0 coords] :: (posLines at_ r ++ (kCard k ++ cellCard cell)))

theorem writeCards_lines (rg : ℚ → Str) (species : List (Str × ℚ × Str)) (coords : Str) (at_ : List Str) (r : Pos)
    (k : Option (Str × KPoints)) (cell : Option (Str × (Fin 3 → Fin 3 → ℚ))) (hk : ∀ t x, k = some (t, x) → KOk t x) :
    writeCards rg species coords at_ r k cell = (cardLines rg species coords at_ r k cell).flatMap line := by
  have e : ∀ s, '\n' :: s = line [] ++ s := fun s => rfl
  have ek : (match (generalizing := false) k with
      | some (ktyp, k) => writeK ktyp k
      | none => []) = (kCard k).flatMap line := by
    cases k with
    | none => rfl
    | some x => exact writeK_lines x.1 x.2 (hk x.1 x.2 rfl)
  have ec : (match (generalizing := false) cell with
      | some (units, r) => writeCell units r
      | none => []) = (cellCard cell).flatMap line := by
    cases cell with
    | none => rfl
    | some x => exact writeCell_lines x.1 x.2
  unfold writeCards cardLines
  rw [writePos_lines, e]
  simp only [List.flatMap_cons, List.flatMap_append, List.flatMap_map, List.append_assoc]
  exact congrArg (fun z => line [fWord 0 0 (tx "ATOMIC_SPECIES")] ++ (List.flatMap (fun s => line (speciesFields rg s)) species ++
    (line [] ++ (line [fWord 0 0 (tx "ATOMIC_POSITIONS"), fWord 1 0 coords] ++ (List.flatMap line (posLines at_ r) ++ z)))))
    (congrArg₂ (· ++ ·) ek ec)

theorem word_tx (s : String) (h : (s.toList ≠ [] ∧ (∀ c ∈ s.toList, isSpace c = false)) ∧
    (∀ c ∈ s.toList, isQuote c = false ∧ c ≠ '!' ∧ c ≠ '&')) : Word (tx s) := ⟨h.1, h.2⟩

theorem line_nil : Line [] := ⟨by simp, by simp⟩

theorem line_one (a : Str) (h : Word a) : Line [fWord 0 0 a] := ⟨fun f hf => by
  rw [List.mem_singleton] at hf
  subst hf
  exact h, by simp⟩

theorem line_two (a b : Str) (h : Word a) (h' : Word b) : Line [fWord 0 0 a, fWord 1 0 b] := by
  refine ⟨fun f hf => ?_, fun f hf => ?_⟩
  · simp only [List.mem_cons, List.not_mem_nil, or_false] at hf
    rcases hf with rfl | rfl
    · exact h
    · exact h'
  · simp only [List.tail_cons, List.mem_cons, List.not_mem_nil, or_false] at hf
    subst hf
    exact Or.inl Nat.one_pos

theorem line_int (z : Int) : Line [fInt 0 0 z] := ⟨fun f hf => by
  rw [List.mem_singleton] at hf
  subst hf
  exact word_int z, by simp⟩

theorem line_six (a b c d e f : Int) :
    Line [fInt 0 0 a, fInt 1 0 b, fInt 1 0 c, fInt 1 0 d, fInt 1 0 e, fInt 1 0 f] := by
  refine ⟨fun f hf => ?_, fun f hf => ?_⟩
  · simp only [List.mem_cons, List.not_mem_nil, or_false] at hf
    rcases hf with rfl | rfl | rfl | rfl | rfl | rfl <;> exact word_int _
  · simp only [List.tail_cons, List.mem_cons, List.not_mem_nil, or_false] at hf
    rcases hf with rfl | rfl | rfl | rfl | rfl <;> exact Or.inl Nat.one_pos

theorem word_species : Word (tx "ATOMIC_SPECIES") := word_tx _ (by decide +kernel)
theorem word_positions : Word (tx "ATOMIC_POSITIONS") := word_tx _ (by decide +kernel)
theorem word_k : Word (tx "K_POINTS") := word_tx _ (by decide +kernel)
theorem word_cell : Word (tx "CELL_PARAMETERS") := word_tx _ (by decide +kernel)

theorem kLines_line (k : KPoints) : ∀ l ∈ kLines k, Line l := by
  intro l hl
  match k with
  | .automatic [a, b, c, d, e, f] =>
    simp only [kLines, List.mem_singleton] at hl
    subst hl
    exact line_six a b c d e f
  | .automatic [] => simp [kLines] at hl
  | .automatic [_] => simp [kLines] at hl
  | .automatic [_, _] => simp [kLines] at hl
  | .automatic [_, _, _] => simp [kLines] at hl
  | .automatic [_, _, _, _] => simp [kLines] at hl
  | .automatic [_, _, _, _, _] => simp [kLines] at hl
  | .automatic (_ :: _ :: _ :: _ :: _ :: _ :: _ :: _) => simp [kLines] at hl
  | .gamma => simp [kLines] at hl
  | .list nks k =>
    simp only [kLines, List.mem_cons, List.mem_map] at hl
    rcases hl with rfl | ⟨x, _, rfl⟩
    · exact line_int nks
    · exact line_k x

theorem posLines_line (coords : Str) (at_ : List Str) (r : Pos) (hat : ∀ X ∈ at_, Word X) (h : PosOk coords at_ r) :
    ∀ l ∈ posLines at_ r, Line l := by
  intro l hl
  cases r with
  | cart r =>
    simp only [posLines, List.mem_map] at hl
    obtain ⟨x, hx, rfl⟩ := hl
    exact line_pos _ _ (hat _ (List.of_mem_zip hx).1)
  | sg r =>
    simp only [posLines, List.mem_map] at hl
    obtain ⟨x, hx, rfl⟩ := hl
    exact line_sg _ _ (hat _ (List.of_mem_zip hx).1) (h.2.2 _ (List.of_mem_zip hx).2)

theorem kCard_line (k : Option (Str × KPoints)) (h : ∀ t x, k = some (t, x) → Word t) : ∀ l ∈ kCard k, Line l := by
  intro l hl
  cases k with
  | none => simp [kCard] at hl
  | some x =>
    simp only [kCard, List.mem_cons] at hl
    rcases hl with rfl | rfl | hl
    · exact line_nil
    · exact line_two _ _ word_k (h x.1 x.2 rfl)
    · exact kLines_line _ l hl

theorem cellCard_line (cell : Option (Str × (Fin 3 → Fin 3 → ℚ))) (h : ∀ t x, cell = some (t, x) → Word t) :
    ∀ l ∈ cellCard cell, Line l := by
  intro l hl
  cases cell with
  | none => simp [cellCard] at hl
  | some x =>
    simp only [cellCard, List.mem_cons, List.not_mem_nil, or_false] at hl
    rcases hl with rfl | rfl | rfl | rfl | rfl
    · exact line_nil
    · exact line_two _ _ word_cell (h x.1 x.2 rfl)
    all_goals exact line_cell _

theorem cardLines_line (rg : ℚ → Str) (species : List (Str × ℚ × Str)) (coords : Str) (at_ : List Str) (r : Pos)
    (k : Option (Str × KPoints)) (cell : Option (Str × (Fin 3 → Fin 3 → ℚ)))
    (hs : ∀ s ∈ species, Word s.1 ∧ Word (rg s.2.1) ∧ Word s.2.2) (hc : Word coords) (hat : ∀ X ∈ at_, Word X)
    (hr : PosOk coords at_ r) (hk : ∀ t x, k = some (t, x) → Word t) (hu : ∀ t x, cell = some (t, x) → Word t) :
    ∀ l ∈ cardLines rg species coords at_ r k cell, Line l := by
  intro l hl
  simp only [cardLines, List.mem_cons, List.mem_append, List.mem_map] at hl
  rcases hl with rfl | ⟨s, h, rfl⟩ | rfl | rfl | hl | hl | hl
  · exact line_one _ word_species
  · exact line_species rg s (hs s h)
  · exact line_nil
  · exact line_two _ _ word_positions hc
  · exact posLines_line coords at_ r hat hr l hl
  · exact kCard_line k hk l hl
  · exact cellCard_line cell hu l hl

/-! ### Steps of the loop -/

theorem steps_blank (d : Dict) (ls : List Str) (s s' : Cards) (n : Nat) (hs : Steps d n ls s s') :
    Steps d (n + 1) (line [] :: ls) s s' :=
  Steps.cons _ _ _ _ _ _ _ (readCard_other d _ _ s (by rw [line_nil.words]; simp)) le_rfl hs

theorem steps_species (d : Dict) (rg : ℚ → Str) (g : ℚ → ℚ) (species : List (Str × ℚ × Str))
    (hs : ∀ s ∈ species, Word s.1 ∧ Word (rg s.2.1) ∧ Word s.2.2) (hg : ∀ s ∈ species, readFloat (rg s.2.1) = some (g s.2.1))
    (hn : d.lookup (tx "ntyp") = some (.one (.int species.length))) (ls : List Str) (s s' : Cards) (n : Nat)
    (h : Steps d n ls { s with species := some (species.map fun x => (x.1, g x.2.1, x.2.2)) } s') :
    Steps d (n + 1) (line [fWord 0 0 (tx "ATOMIC_SPECIES")] :: ((species.map (speciesFields rg)).map line ++ ls)) s s' := by
  refine Steps.cons _ _ ls s { s with species := some (species.map fun x => (x.1, g x.2.1, x.2.2)) } s' n ?_ (by simp) h
  rw [(line_one _ word_species).words]
  have hc : count d (tx "ntyp") = some species.length := by simp [count, hn]
  have hr := readSpecies_lines rg g species ls hs hg
  have e : (species.map (speciesFields rg)).map line = species.map fun s => line (speciesFields rg s) := List.map_map
  have hkey : (tx "ATOMIC_SPECIES").map Char.toLower = tx "atomic_species" := by decide +kernel
  unfold readCard
  simp only [List.map_cons, List.map_nil, fWord, hkey, if_true, hc, e, hr, Option.bind_eq_bind, Option.bind_some]
  rfl

theorem zip_fst {α β : Type} (a : List α) (b : List β) (h : b.length = a.length) : (a.zip b).map Prod.fst = a :=
  List.map_fst_zip h.symm.le

theorem zip_snd {α β : Type} (a : List α) (b : List β) (h : b.length = a.length) : (a.zip b).map Prod.snd = b :=
  List.map_snd_zip h.le

theorem steps_pos (d : Dict) (coords : Str) (at_ : List Str) (r : Pos) (hc : Word coords) (hu : units coords = coords)
    (hat : ∀ X ∈ at_, Word X) (hr : PosOk coords at_ r)
    (hn : d.lookup (tx "nat") = some (.one (.int at_.length))) (ls : List Str) (s s' : Cards) (n : Nat)
    (h : Steps d n ls { s with coords := some (coords, at_, r.round) } s') :
    Steps d (n + 1) (line [fWord 0 0 (tx "ATOMIC_POSITIONS"), fWord 1 0 coords] :: ((posLines at_ r).map line ++ ls)) s s' := by
  refine Steps.cons _ _ ls s { s with coords := some (coords, at_, r.round) } s' n ?_ (by simp) h
  rw [(line_two _ _ word_positions hc).words]
  have hcn : count d (tx "nat") = some at_.length := by simp [count, hn]
  have hkey : (tx "ATOMIC_POSITIONS").map Char.toLower = tx "atomic_positions" := by decide +kernel
  have hne : tx "atomic_positions" ≠ tx "atomic_species" := by decide +kernel
  unfold readCard
  simp only [List.map_cons, List.map_nil, fWord, hkey, if_neg hne, if_true, hcn, List.getElem?_cons_zero,
    List.getElem?_cons_succ, hu, Option.bind_eq_bind, Option.bind_some]
  cases r with
  | cart l =>
    have hz : (at_.zip l).length = at_.length := by rw [List.length_zip, hr.2, Nat.min_self]
    have hl := readCart_lines (at_.zip l) ls fun x hx => hat _ (List.of_mem_zip hx).1
    rw [hz] at hl
    have e : (posLines at_ (.cart l)).map line = (at_.zip l).map fun x => line (posFields x.1 x.2) := List.map_map
    rw [if_neg (by simp [hr.1]), e, hl]
    simp only [Option.bind_some, List.map_map]
    have e1 : (at_.zip l).map (Prod.fst ∘ fun x => (x.1, round9 x.2)) = at_ := zip_fst at_ l hr.2
    have e2 : (at_.zip l).map (Prod.snd ∘ fun x => (x.1, round9 x.2)) = l.map round9 := by
      have : (Prod.snd ∘ fun x : Str × (Fin 3 → ℚ) => (x.1, round9 x.2)) = round9 ∘ Prod.snd := rfl
      rw [this, ← List.map_map, zip_snd at_ l hr.2]
    rw [e1, e2]
    rfl
  | sg l =>
    have hz : (at_.zip l).length = at_.length := by rw [List.length_zip, hr.2.1, Nat.min_self]
    have hl := readSg_lines (at_.zip l) ls fun x hx => ⟨hat _ (List.of_mem_zip hx).1, hr.2.2 _ (List.of_mem_zip hx).2⟩
    rw [hz] at hl
    have e : (posLines at_ (.sg l)).map line = (at_.zip l).map fun x => line (sgFields x.1 x.2) := List.map_map
    rw [if_pos hr.1, e, hl]
    simp only [Option.bind_some]
    rw [zip_fst at_ l hr.2.1, zip_snd at_ l hr.2.1]
    rfl

theorem steps_k (d : Dict) (k : Option (Str × KPoints)) (hw : ∀ t x, k = some (t, x) → Word t ∧ t.map Char.toLower = t ∧ KOk t x)
    (ls : List Str) (s s' : Cards) (h0 : s.k = none) (n : Nat)
    (h : Steps d n ls { s with k := k.map fun x => (x.1, x.2.round) } s') :
    ∃ m, Steps d m ((kCard k).map line ++ ls) s s' := by
  cases k with
  | none =>
    have : { s with k := (none : Option (Str × KPoints)).map fun x => (x.1, x.2.round) } = s := by
      cases s
      cases h0
      rfl
    rw [this] at h
    exact ⟨n, h⟩
  | some x =>
    obtain ⟨t, x⟩ := x
    obtain ⟨hwt, hlow, hok⟩ := hw t x rfl
    refine ⟨n + 1 + 1, ?_⟩
    simp only [kCard, List.map_cons, List.cons_append]
    refine steps_blank d _ _ _ _ ?_
    refine Steps.cons _ _ ls s { s with k := some (t, x.round) } s' n ?_ (by simp) h
    rw [(line_two _ _ word_k hwt).words]
    have hkey : (tx "K_POINTS").map Char.toLower = tx "k_points" := by decide +kernel
    have hne1 : tx "k_points" ≠ tx "atomic_species" := by decide +kernel
    have hne2 : tx "k_points" ≠ tx "atomic_positions" := by decide +kernel
    unfold readCard
    simp only [List.map_cons, List.map_nil, fWord, hkey, if_neg hne1, if_neg hne2, if_true, List.getElem?_cons_zero,
      List.getElem?_cons_succ, hlow, Option.bind_eq_bind, Option.bind_some]
    match x, hok with
    | .automatic [a, b, c, d, e, f], hok =>
      rw [if_pos hok.1]
      have hw := (line_six a b c d e f).words
      simp only [kLines, List.map_cons, List.map_nil, List.cons_append, List.nil_append, hw]
      have : ([showInt a, showInt b, showInt c, showInt d, showInt e, showInt f].take 6).mapM readInt = some [a, b, c, d, e, f] := by
        simp only [List.take_succ_cons, List.take_nil, List.mapM_cons, List.mapM_nil, readInt_showInt,
          Option.bind_eq_bind, Option.bind_some]
        rfl
      have e2 : ([fInt 0 0 a, fInt 1 0 b, fInt 1 0 c, fInt 1 0 d, fInt 1 0 e, fInt 1 0 f].map Field.text) =
        [showInt a, showInt b, showInt c, showInt d, showInt e, showInt f] := rfl
      simp only [List.map_cons, List.map_nil] at e2
      rw [e2, this]
      rfl
    | .gamma, hok =>
      rw [if_neg (by simp [hok.1]), if_pos hok.2]
      rfl
    | .list nks l, hok =>
      obtain ⟨h1, h2, rfl⟩ := hok
      rw [if_neg (by simp [h1]), if_neg (by simp [h2])]
      have hw := (line_int (l.length : Int)).words
      have hr := readK_lines l ls
      have e : (l.map kFields).map line = l.map fun k => line (kFields k) := List.map_map
      have e2 : [(fInt 0 0 (l.length : Int))].map Field.text = [showInt (l.length : Int)] := rfl
      rw [e2] at hw
      simp only [kLines, List.map_cons, List.cons_append, hw, readInt_showInt, Option.bind_some,
        if_neg (not_lt.2 (Int.natCast_nonneg l.length)), Int.toNat_natCast, e, hr]
      rfl

theorem steps_cell (d : Dict) (cell : Option (Str × (Fin 3 → Fin 3 → ℚ))) (hw : ∀ t x, cell = some (t, x) → Word t)
    (s : Cards) (h0 : s.cell = none) :
    ∃ m, Steps d m ((cellCard cell).map line) s { s with cell := cell.map fun x => (x.1, fun i => round9 (x.2 i)) } := by
  cases cell with
  | none =>
    have : { s with cell := (none : Option (Str × (Fin 3 → Fin 3 → ℚ))).map fun x => (x.1, fun i => round9 (x.2 i)) } = s := by
      cases s
      cases h0
      rfl
    rw [this]
    exact ⟨0, Steps.nil s⟩
  | some x =>
    obtain ⟨u, r⟩ := x
    have hwt := hw u r rfl
    refine ⟨0 + 1 + 1, ?_⟩
    simp only [cellCard, List.map_cons, List.map_nil]
    refine steps_blank d _ _ _ _ ?_
    refine Steps.cons _ _ [] s _ _ 0 ?_ (by simp) (Steps.nil _)
    rw [(line_two _ _ word_cell hwt).words]
    have hkey : (tx "CELL_PARAMETERS").map Char.toLower = tx "cell_parameters" := by decide +kernel
    have hne1 : tx "cell_parameters" ≠ tx "atomic_species" := by decide +kernel
    have hne2 : tx "cell_parameters" ≠ tx "atomic_positions" := by decide +kernel
    have hne3 : tx "cell_parameters" ≠ tx "k_points" := by decide +kernel
    have e : ![round9 (r 0), round9 (r 1), round9 (r 2)] = fun i => round9 (r i) := by
      funext i
      fin_cases i <;> rfl
    unfold readCard
    simp only [List.map_cons, List.map_nil, fWord, hkey, if_neg hne1, if_neg hne2, if_neg hne3, if_true,
      List.getElem?_cons_zero, List.getElem?_cons_succ, row3_line, Option.bind_eq_bind, Option.bind_some, Option.getD_some, e]
    rfl

/-- **C122.** Parameters and structures which have been written to an input file of `pw.x` are read without changes, apart from
rounding. -/
theorem C122_partial (rf rg : ℚ → Str) (g : ℚ → ℚ) (fuel : Nat) (hf : 2 ≤ fuel) (struct : Str → Option Val)
    (species : List (Str × ℚ × Str)) (coords : Str) (at_ : List Str) (r : Pos) (k : Option (Str × KPoints))
    (cell : Option (Str × (Fin 3 → Fin 3 → ℚ)))
    (h : ∀ key v, key ≠ tx "celldm" → struct key = some v → ∃ i, v = .one i ∧ ItemOk rf i)
    (hc : DimsOk rf (struct (tx "celldm")))
    (hntyp : struct (tx "ntyp") = some (.one (.int species.length)))
    (hnat : struct (tx "nat") = some (.one (.int at_.length)))
    (hs : ∀ s ∈ species, Word s.1 ∧ Word (rg s.2.1) ∧ Word s.2.2 ∧ readFloat (rg s.2.1) = some (g s.2.1))
    (hco : Word coords ∧ units coords = coords) (hat : ∀ X ∈ at_, Word X) (hr : PosOk coords at_ r)
    (hk : ∀ t x, k = some (t, x) → Word t ∧ t.map Char.toLower = t ∧ KOk t x)
    (hu : ∀ t x, cell = some (t, x) → Word t) :
    ∃ d, readPwi fuel (writePwi rf rg struct species coords at_ r k cell) = some (d,
        { species := some (species.map fun s => (s.1, g s.2.1, s.2.2))
          coords := some (coords, at_, r.round)
          k := k.map fun x => (x.1, x.2.round)
          cell := cell.map fun x => (x.1, fun i => round9 (x.2 i)) }) ∧
      ∀ key, d.lookup key = if key ∈ written struct then struct key else none := by
  have hfine : Fine rf struct allKeys := fun key hm v hv => h key v
    (fun e => (by decide +kernel : tx "celldm" ∉ allKeys) (e ▸ hm)) hv
  have hs' : ∀ s ∈ species, Word s.1 ∧ Word (rg s.2.1) ∧ Word s.2.2 := fun s h => ⟨(hs s h).1, (hs s h).2.1, (hs s h).2.2.1⟩
  have hline := cardLines_line rg species coords at_ r k cell hs' hco.1 hat hr (fun t x e => (hk t x e).1) hu
  have ht : TailOk (writeCards rg species coords at_ r k cell) := by
    have key : ∀ c ∈ writeCards rg species coords at_ r k cell, isQuote c = false ∧ c ≠ '!' ∧ c ≠ '&' := by
      intro c hc
      rw [writeCards_lines rg species coords at_ r k cell (fun t x e => (hk t x e).2.2), List.mem_flatMap] at hc
      obtain ⟨l, hl, hc⟩ := hc
      exact (hline l hl).tame c hc
    exact ⟨fun c hc => (key c hc).1, fun hc => (key _ hc).2.1 rfl, fun hc => (key _ hc).2.2 rfl⟩
  obtain ⟨d, hd, hl⟩ := read_lists rf fuel hf struct hfine hc _ ht
  refine ⟨wrap d (tx "celldm"), ?_, hl⟩
  have hlines : lines (writePwi rf rg struct species coords at_ r k cell) =
      ((blocks struct).flatMap fun b => ('&' :: b.1 ++ ['\n']) :: (b.2.map (lineText rf) ++ [['/', '\n']])) ++
        (cardLines rg species coords at_ r k cell).map line := by
    have e := lines_cards _ hline []
    rw [List.append_nil] at e
    rw [writePwi, writeLists_blocks rf struct hfine, lines_blocks rf _ (blockOk rf struct hfine hc),
      writeCards_lines rg species coords at_ r k cell (fun t x e => (hk t x e).2.2), e]
    simp [lines, linesAux]
  have hmem : ∀ key, key ∈ baseNames → key ∈ written struct := fun key hm => by
    rw [written, List.mem_append]
    exact Or.inl hm
  have h1 : (wrap d (tx "celldm")).lookup (tx "ntyp") = some (.one (.int species.length)) := by
    rw [hl, if_pos (hmem _ (by decide +kernel)), hntyp]
  have h2 : (wrap d (tx "celldm")).lookup (tx "nat") = some (.one (.int at_.length)) := by
    rw [hl, if_pos (hmem _ (by decide +kernel)), hnat]
  have hsteps : ∃ m, Steps (wrap d (tx "celldm")) m (lines (writePwi rf rg struct species coords at_ r k cell)) {}
      { species := some (species.map fun s => (s.1, g s.2.1, s.2.2))
        coords := some (coords, at_, r.round)
        k := k.map fun x => (x.1, x.2.round)
        cell := cell.map fun x => (x.1, fun i => round9 (x.2 i)) } := by
    obtain ⟨m1, s1⟩ := steps_cell (wrap d (tx "celldm")) cell hu
      { species := some (species.map fun s => (s.1, g s.2.1, s.2.2))
        coords := some (coords, at_, r.round)
        k := k.map fun x => (x.1, x.2.round)
        cell := none } rfl
    obtain ⟨m2, s2⟩ := steps_k (wrap d (tx "celldm")) k hk _
      { species := some (species.map fun s => (s.1, g s.2.1, s.2.2))
        coords := some (coords, at_, r.round)
        k := none
        cell := none } _ rfl m1 s1
    have s3 := steps_pos (wrap d (tx "celldm")) coords at_ r hco.1 hco.2 hat hr h2 _
      { species := some (species.map fun s => (s.1, g s.2.1, s.2.2)) } _ m2 s2
    have s4 := steps_blank _ _ _ _ _ s3
    have s5 := steps_species (wrap d (tx "celldm")) rg g species hs' (fun s h => (hs s h).2.2.2) h1 _ {} _ _ s4
    have s6 := steps_other _ _ _ _ _ _ (lists_skip rf struct hfine hc) s5
    rw [hlines, cardLines]
    simp only [List.map_cons, List.map_append]
    exact ⟨_, s6⟩
  obtain ⟨m, hm⟩ := hsteps
  unfold readPwi
  have hread := hm.read _ hm.le
  rw [show writePwi rf rg struct species coords at_ r k cell = writeLists rf struct ++
    writeCards rg species coords at_ r k cell from rfl] at hread ⊢
  rw [hd]
  simp only [Option.bind_eq_bind, Option.bind_some, hread]
  rfl

/-- A layer of graphene. -/
def graphene : Str → Option Val := fun key =>
  if key = tx "prefix" then some (.one (.str (tx "graphene")))
  else if key = tx "ibrav" then some (.one (.int 4))
  else if key = tx "ntyp" then some (.one (.int 1))
  else if key = tx "nat" then some (.one (.int 2))
  else if key = tx "celldm" then some (.many [.int 5, .none, .int 6])
  else none

/-- The hypotheses of C122 can be met: graphene with a mesh of k points. -/
example (rf : ℚ → Str) : ∃ d, readPwi 2 (writePwi rf (fun _ => tx "12.011") graphene [(tx "C", 12011 / 1000, tx "C.upf")]
    (tx "crystal") [tx "C", tx "C"] (.cart [fun _ => 0, fun _ => 1 / 3]) (some (tx "automatic", .automatic [9, 9, 1, 0, 0, 0])) none) =
    some (d, { species := some [(tx "C", 12011 / 1000, tx "C.upf")]
               coords := some (tx "crystal", [tx "C", tx "C"], (Pos.cart [fun _ => 0, fun _ => 1 / 3]).round)
               k := some (tx "automatic", .automatic [9, 9, 1, 0, 0, 0])
               cell := none }) ∧ d.lookup (tx "celldm") = some (.many [.int 5, .none, .int 6]) := by
  have hw : ∀ s : String, ((s.toList ≠ [] ∧ (∀ c ∈ s.toList, isSpace c = false)) ∧
    (∀ c ∈ s.toList, isQuote c = false ∧ c ≠ '!' ∧ c ≠ '&')) → Word (tx s) := word_tx
  have hC := hw "C" (by decide +kernel)
  obtain ⟨d, hd, hl⟩ := C122_partial rf (fun _ => tx "12.011") id 2 le_rfl graphene [(tx "C", 12011 / 1000, tx "C.upf")]
    (tx "crystal") [tx "C", tx "C"] (.cart [fun _ => 0, fun _ => 1 / 3]) (some (tx "automatic", .automatic [9, 9, 1, 0, 0, 0])) none
    (fun key v h0 hv => by
      unfold graphene at hv
      split_ifs at hv
      · exact ⟨_, (Option.some.inj hv).symm, ⟨by decide +kernel, by decide +kernel, by decide +kernel,
          noTriple_of_not_mem _ (by decide +kernel)⟩⟩
      · exact ⟨_, (Option.some.inj hv).symm, trivial⟩
      · exact ⟨_, (Option.some.inj hv).symm, trivial⟩
      · exact ⟨_, (Option.some.inj hv).symm, trivial⟩)
    (fun v hv => by
      have e : graphene (tx "celldm") = some (.many [.int 5, .none, .int 6]) := rfl
      rw [e] at hv
      refine ⟨_, (Option.some.inj hv).symm, fun i hi => ?_, .int 6, rfl, rfl⟩
      simp only [List.mem_cons, List.not_mem_nil, or_false] at hi
      rcases hi with rfl | rfl | rfl
      · exact Or.inr ⟨trivial, rfl⟩
      · exact Or.inl rfl
      · exact Or.inr ⟨trivial, rfl⟩)
    rfl rfl
    (fun s hs => by
      rw [List.mem_singleton] at hs
      subst hs
      refine ⟨hC, hw "12.011" (by decide +kernel), hw "C.upf" (by decide +kernel), ?_⟩
      show readFloat (tx "12.011") = some (12011 / 1000)
      decide +kernel)
    ⟨hw "crystal" (by decide +kernel), by decide +kernel⟩
    (fun X hX => by
      simp only [List.mem_cons, List.not_mem_nil, or_false, or_self] at hX
      exact hX ▸ hC)
    ⟨by decide +kernel, rfl⟩
    (fun t x e => by
      obtain ⟨rfl, rfl⟩ := Prod.mk.inj (Option.some.inj e)
      exact ⟨hw "automatic" (by decide +kernel), by decide +kernel, by decide +kernel, rfl⟩)
    (fun t x e => by simp at e)
  refine ⟨d, hd, ?_⟩
  rw [hl, if_pos]
  · rfl
  · rw [written, List.mem_append]
    exact Or.inl (by decide +kernel)

/-- **C122 is violated** for lists: The initial magnetizations of several species are written in brackets, and read as
strings. -/
theorem C122_magnetization_violated : ∃ struct : Str → Option Val,
    struct (tx "starting_magnetization") = some (.many [.int 1, .int (-1)]) ∧
      ∀ rf, ∃ d, readInput 2 (writeLists rf struct) = some d ∧
        d.lookup (tx "starting_magnetization") = some (.many [.str (tx "[1"), .str (tx "-1]")]) := by
  refine ⟨fun k => if k = tx "starting_magnetization" then some (.many [.int 1, .int (-1)]) else none, if_pos rfl, fun rf => ?_⟩
  have hw : writeLists rf (fun k => if k = tx "starting_magnetization" then some (.many [.int 1, .int (-1)]) else none) =
      tx "&CONTROL\n/\n&SYSTEM\nstarting_magnetization = [1, -1]\n/\n&ELECTRONS\n/\n" := rfl
  rw [hw]
  exact ⟨[(tx "starting_magnetization", .many [.str (tx "[1"), .str (tx "-1]")])], by decide +kernel, by decide +kernel⟩

/-- **C122 is violated** for zeros in `celldm`, which are not written: They are read as `None`. -/
theorem C122_zero_violated : ∃ struct : Str → Option Val, struct (tx "celldm") = some (.many [.int 5, .int 0, .int 6]) ∧
    ∀ rf, ∃ d, readInput 2 (writeLists rf struct) = some d ∧
      (wrap d (tx "celldm")).lookup (tx "celldm") = some (.many [.int 5, .none, .int 6]) := by
  refine ⟨fun k => if k = tx "celldm" then some (.many [.int 5, .int 0, .int 6]) else none, if_pos rfl, fun rf => ?_⟩
  have hw : writeLists rf (fun k => if k = tx "celldm" then some (.many [.int 5, .int 0, .int 6]) else none) =
      tx "&CONTROL\n/\n&SYSTEM\ncelldm(1) = 5\ncelldm(3) = 6\n/\n&ELECTRONS\n/\n" := rfl
  rw [hw]
  exact ⟨[(tx "celldm", .many [.int 5, .none, .int 6])], by decide +kernel, by decide +kernel⟩

end Verif.Pwi
