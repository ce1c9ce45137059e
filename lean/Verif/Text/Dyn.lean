import Verif.Text.Flfrc

/-!
# Files with dynamical matrices: `read_flfrc` and `write_flfrc` in `elphmod/ph.py` 1088-1431, reciprocal space

Wave vectors are represented in the units of the file (`2 π / alat`).
-/

namespace Verif.Text

/-- One dynamical matrix: wave vector and elements with indices `na1`, `na2`, `j1`, `j2`. -/
structure DynQ where
  q : Nat → ℚ
  D : List Nat → ℚ × ℚ

/-- Lines for each pair of atoms: a heading (`none`) and three rows. -/
def dynOrder (nat : Nat) : List (List Nat × Option Nat) :=
  (indices [nat, nat]).flatMap fun i => (i, none) :: (List.range 3).map fun j => (i, some j)

/-- Fields of `elphmod/ph.py` 1369-1374. -/
def dynFields (D : List Nat → ℚ × ℚ) : List Nat × Option Nat → List Field
  | (i, none) => [fInt 0 5 (i.getD 0 0 + 1 : Nat), fInt 0 5 (i.getD 1 0 + 1 : Nat)]
  | (i, some j) => [fFixed 0 12 8 (D (i ++ [j, 0])).1, fFixed 0 12 8 (D (i ++ [j, 0])).2,
      fFixed 2 12 8 (D (i ++ [j, 1])).1, fFixed 0 12 8 (D (i ++ [j, 1])).2,
      fFixed 2 12 8 (D (i ++ [j, 2])).1, fFixed 0 12 8 (D (i ++ [j, 2])).2]

/-- `elphmod/ph.py` 1358-1374. -/
def writeDynQ (nat : Nat) (d : DynQ) : Str :=
  "\n     Dynamical matrix in Cartesian axes\n\n".toList ++
  (fmt [⟨5, 0, ['q']⟩, ⟨1, 0, ['=']⟩, ⟨1, 0, ['(']⟩, fFixed 1 14 9 (d.q 0), fFixed 0 14 9 (d.q 1), fFixed 0 14 9 (d.q 2),
    ⟨1, 0, [')']⟩] ++ '\n' :: '\n' :: (dynOrder nat).flatMap fun p => fmt (dynFields d.D p) ++ ['\n'])

/-- `elphmod/ph.py` 1277-1412 (`write_flfrc`) for dynamical matrices. -/
def writeDyn (species : List (Str × ℚ)) (alat : ℚ) (at_ : Nat → Nat → ℚ) (atoms : List (Str × ℚ)) (tau : Nat → Nat → ℚ)
    (rigid : Option Rigid) (dyn : List DynQ) : Str :=
  writeStructure true species alat at_ atoms tau ++ (dyn.flatMap (writeDynQ atoms.length) ++
    match rigid with
    | none => []
    | some e => "\n     Dielectric tensor\n".toList ++ (writeEpsil e ++ ("\n     Effective charges\n".toList ++
        writeZeu "     atom #".toList atoms.length e)))

/-- Lower-case letter. -/
def lowerChar (c : Char) : Char := if 65 ≤ c.toNat ∧ c.toNat ≤ 90 then Char.ofNat (c.toNat + 32) else c

/-- `' '.join(l).lower()` -/
def joinLower : List Str → Str
  | [] => []
  | [w] => w.map lowerChar
  | w :: r => w.map lowerChar ++ ' ' :: joinLower r

/-- `p in s` -/
def contains (p s : Str) : Bool := s.tails.any fun t => p.isPrefixOf t

/-- `complex(*v)` for up to two numbers. -/
def complexOf : List ℚ → ℚ × ℚ
  | [] => (0, 0)
  | [x] => (x, 0)
  | x :: y :: _ => (x, y)

/-- `elphmod/ph.py` 1207-1217. -/
def readDynD : List (List Nat × Option Nat) → (List Nat → Option (ℚ × ℚ)) → List (List Str) →
    Option ((List Nat → Option (ℚ × ℚ)) × List (List Str))
  | [], D, t => some (D, t)
  | (i, o) :: r, D, t => do
    let (l, t) ← cols t
    match o with
    | none => readDynD r D t
    | some j =>
      let v ← l.mapM readFloat
      readDynD r (fun k =>
        if k = i ++ [j, 2] then some (complexOf ((v.drop 4).take 2))
        else if k = i ++ [j, 1] then some (complexOf ((v.drop 2).take 2))
        else if k = i ++ [j, 0] then some (complexOf (v.take 2))
        else D k) t

/-- Sections of the file. -/
structure DynData where
  q : List (List ℚ)
  D : List (List Nat → Option (ℚ × ℚ))
  epsil : Option (List (List ℚ))
  zeu : Option (Nat → Option (List (List ℚ)))

/-- Loop of `elphmod/ph.py` 1194-1230. `fuel` bounds the number of sections. -/
def readDynLoop (nat : Nat) : Nat → DynData → List (List Str) → Option DynData
  | 0, _, _ => none
  | f + 1, s, t =>
    match cols t with
    | none => some s
    | some (l, t) =>
      let line := joinLower l
      if contains "dynamical matrix in cartesian axes".toList line then do
        let (l, t) ← cols t
        let q ← ((l.drop 3).take 3).mapM readFloat
        let (D, t) ← readDynD (dynOrder nat) (fun _ => none) t
        readDynLoop nat f { s with q := s.q ++ [q], D := s.D ++ [D] } t
      else if contains "dielectric tensor".toList line then do
        let (e, t) ← table 3 t
        readDynLoop nat f { s with epsil := some e } t
      else if contains "effective charges e-u".toList line then do
        let (z, t) ← readZeu (fun l => l.getLast?) nat nat (fun _ => none) t
        readDynLoop nat f { s with zeu := some z } t
      else some s

/-- `elphmod/ph.py` 1088-1275 (`read_flfrc`) for dynamical matrices. -/
def readDyn (prim : Int → List ℚ → Option (List (List ℚ))) (fuel : Nat) (text : Str) : Option (Crystal × DynData) := do
  let (dyn, c, t) ← readStructure prim (tokens text)
  if dyn then
    let s ← readDynLoop c.atoms.length fuel ⟨[], [], none, none⟩ t
    some (c, s)
  else none

/-! ### Proofs -/

/-- Can the columns be told apart? -/
structure DynQ.Narrow (nat : Nat) (d : DynQ) : Prop where
  q : |d.q 1| ≤ 99 ∧ |d.q 2| ≤ 99
  D : ∀ na1 < nat, ∀ na2 < nat, ∀ j1 < 3, ∀ j2 < 3, |(d.D [na1, na2, j1, j2]).2| ≤ 9

theorem mem_dynOrder (nat : Nat) (i : List Nat) (j : Nat) :
    (i, some j) ∈ dynOrder nat ↔ (∃ na1 < nat, ∃ na2 < nat, i = [na1, na2]) ∧ j < 3 := by
  unfold dynOrder
  simp only [List.mem_flatMap, List.mem_cons, List.mem_map, List.mem_range, Prod.mk.injEq, reduceCtorEq, and_false, false_or,
    Option.some.injEq]
  constructor
  · rintro ⟨a, ha, j', hj, rfl, rfl⟩
    refine ⟨?_, hj⟩
    rw [mem_indices] at ha
    cases ha with
    | cons h1 h =>
      cases h with
      | cons h2 h =>
        cases h
        exact ⟨_, h1, _, h2, rfl⟩
  · rintro ⟨⟨na1, h1, na2, h2, rfl⟩, hj⟩
    exact ⟨_, (mem_indices _ _).2 (.cons h1 (.cons h2 .nil)), j, hj, rfl, rfl⟩

/-- Words of the lines of a matrix. The heading is one word if it is wide. -/
def dynWords (D : List Nat → ℚ × ℚ) (p : List Nat × Option Nat) : List Str := words (fmt (dynFields D p) ++ ['\n'])

theorem tokens_dynRows (nat : Nat) (d : DynQ) (r : Str) :
    tokens (((dynOrder nat).flatMap fun p => fmt (dynFields d.D p) ++ ['\n']) ++ r) =
      ((dynOrder nat).map fun p => dynWords d.D p) ++ tokens r := by
  rw [← flatMap_single]
  refine tokens_flatMap _ _ _ (fun p hp r => ?_) r
  rw [List.append_assoc, List.singleton_append, tokens_line _ (fmt_newline _ ?_)]
  · rfl
  · obtain ⟨i, o⟩ := p
    intro f hf
    cases o with
    | none =>
      simp only [dynFields, List.mem_cons, List.not_mem_nil, or_false] at hf
      rcases hf with rfl | rfl <;> exact fInt_solid _ _ _
    | some j =>
      simp only [dynFields, List.mem_cons, List.not_mem_nil, or_false] at hf
      rcases hf with rfl | rfl | rfl | rfl | rfl | rfl <;> exact fFixed_solid _ _ _ _

/-- A line with a field has a word. -/
theorem words_ne (f : Field) (hf : Solid f.text) (r : Str) : words (fmt [f] ++ r) ≠ [] := by
  have key : ∀ (s acc : Str), acc ≠ [] → wordsAux acc s ≠ [] := by
    intro s
    induction s with
    | nil =>
      intro acc h
      simp [wordsAux, h]
    | cons c s ih =>
      intro acc h
      rw [wordsAux]
      split
      · simp [h]
      · exact ih _ (by simp)
  unfold words
  have e : fmt [f] ++ r = List.replicate (f.sp + (f.width - f.text.length)) ' ' ++ (f.text ++ r) := by
    simp only [fmt, List.flatMap_cons, List.flatMap_nil, List.append_nil, padLeft, padWith, ← List.replicate_append_replicate,
      List.append_assoc]
  rw [e, words_space, wordsAux_solid _ hf.2, List.nil_append]
  exact key _ _ hf.1

theorem dynWords_none (D : List Nat → ℚ × ℚ) (i : List Nat) : dynWords D (i, none) ≠ [] := by
  unfold dynWords dynFields
  have e : ∀ (a b : Field), fmt [a, b] ++ ['\n'] = fmt [a] ++ (fmt [b] ++ ['\n']) := by
    intro a b
    simp [fmt]
  rw [e]
  exact words_ne _ (fInt_solid _ _ _) _

theorem dynWords_some (nat : Nat) (d : DynQ) (hd : d.Narrow nat) (i : List Nat) (j : Nat) (h : (i, some j) ∈ dynOrder nat) :
    dynWords d.D (i, some j) = (dynFields d.D (i, some j)).map Field.text := by
  obtain ⟨⟨na1, h1, na2, h2, rfl⟩, hj⟩ := (mem_dynOrder _ _ _).1 h
  have hn := fun k hk => hd.D na1 h1 na2 h2 j hj k hk
  unfold dynWords
  refine words_fmt _ ?_ ?_
  · intro f hf
    simp only [dynFields, List.mem_cons, List.not_mem_nil, or_false] at hf
    rcases hf with rfl | rfl | rfl | rfl | rfl | rfl <;> exact fFixed_solid _ _ _ _
  · intro f hf
    simp only [dynFields, List.tail_cons, List.mem_cons, List.not_mem_nil, or_false] at hf
    rcases hf with rfl | rfl | rfl | rfl | rfl
    · exact fFixed_free 0 12 8 1 _ (by omega) (by omega) (by omega) ((hn 0 (by omega)).trans (by norm_num))
    · exact Or.inl Nat.two_pos
    · exact fFixed_free 0 12 8 1 _ (by omega) (by omega) (by omega) ((hn 1 (by omega)).trans (by norm_num))
    · exact Or.inl Nat.two_pos
    · exact fFixed_free 0 12 8 1 _ (by omega) (by omega) (by omega) ((hn 2 (by omega)).trans (by norm_num))

/-- Rounded complex number. -/
def roundC (z : ℚ × ℚ) : ℚ × ℚ := (roundTo 8 z.1, roundTo 8 z.2)

theorem readDynD_words (nat : Nat) (d : DynQ) (hd : d.Narrow nat) (L : List (List Nat × Option Nat))
    (hL : ∀ p ∈ L, p ∈ dynOrder nat) (D : List Nat → Option (ℚ × ℚ)) (t : List (List Str)) :
    ∃ E, readDynD L D ((L.map fun p => dynWords d.D p) ++ t) = some (E, t) ∧
      (∀ i j k, (i, some j) ∈ L → k < 3 → E (i ++ [j, k]) = some (roundC (d.D (i ++ [j, k])))) ∧
      ∀ l, D l = some (roundC (d.D l)) → E l = some (roundC (d.D l)) := by
  induction L generalizing D with
  | nil => exact ⟨D, rfl, by simp, fun l h => h⟩
  | cons p L ih =>
    obtain ⟨i, o⟩ := p
    cases o with
    | none =>
      obtain ⟨E, e1, e2, e3⟩ := ih (fun p hp => hL p (by simp [hp])) D
      refine ⟨E, ?_, fun a b k h hk => e2 a b k (by simpa using h) hk, e3⟩
      rw [List.map_cons, List.cons_append, readDynD, cols_cons _ (dynWords_none _ _)]
      exact e1
    | some j =>
      have hv : (dynWords d.D (i, some j)).mapM readFloat = some [roundTo 8 (d.D (i ++ [j, 0])).1, roundTo 8 (d.D (i ++ [j, 0])).2,
          roundTo 8 (d.D (i ++ [j, 1])).1, roundTo 8 (d.D (i ++ [j, 1])).2, roundTo 8 (d.D (i ++ [j, 2])).1,
          roundTo 8 (d.D (i ++ [j, 2])).2] := by
        rw [dynWords_some nat d hd i j (hL _ (by simp))]
        simp only [dynFields, List.map_cons, List.map_nil, text_fFixed, List.mapM_cons, List.mapM_nil,
          readFloat_showFixed 8 (show 0 < 8 by omega)]
        rfl
      have hne : dynWords d.D (i, some j) ≠ [] := by
        rw [dynWords_some nat d hd i j (hL _ (by simp))]
        simp [dynFields]
      obtain ⟨E, e1, e2, e3⟩ := ih (fun p hp => hL p (by simp [hp])) fun k =>
        if k = i ++ [j, 2] then some (roundC (d.D (i ++ [j, 2])))
        else if k = i ++ [j, 1] then some (roundC (d.D (i ++ [j, 1])))
        else if k = i ++ [j, 0] then some (roundC (d.D (i ++ [j, 0])))
        else D k
      refine ⟨E, ?_, ?_, ?_⟩
      · rw [List.map_cons, List.cons_append, readDynD, cols_cons _ hne]
        simp only [Option.bind_eq_bind, Option.bind_some, hv]
        exact e1
      · intro a b k h hk
        rw [List.mem_cons] at h
        rcases h with h | h
        · simp only [Prod.mk.injEq, Option.some.injEq] at h
          obtain ⟨rfl, rfl⟩ := h
          apply e3
          interval_cases k <;> simp
        · exact e2 a b k h hk
      · intro l hl
        apply e3
        by_cases h2 : l = i ++ [j, 2]
        · simp [h2]
        · by_cases h1 : l = i ++ [j, 1]
          · simp [h1]
          · by_cases h0 : l = i ++ [j, 0]
            · simp [h0]
            · rw [if_neg h2, if_neg h1, if_neg h0, hl]

/-- Specification: dynamical matrix as read. -/
def SameDyn (nat : Nat) (d : DynQ) (q : List ℚ) (D : List Nat → Option (ℚ × ℚ)) : Prop :=
  (∃ x y z : ℚ, q = [x, y, z] ∧ |x - d.q 0| ≤ 1 / 2 / 10 ^ 9 ∧ |y - d.q 1| ≤ 1 / 2 / 10 ^ 9 ∧ |z - d.q 2| ≤ 1 / 2 / 10 ^ 9) ∧
  ∀ na1 < nat, ∀ na2 < nat, ∀ j1 < 3, ∀ j2 < 3, ∃ a b, D [na1, na2, j1, j2] = some (a, b) ∧
    |a - (d.D [na1, na2, j1, j2]).1| ≤ 1 / 2 / 10 ^ 8 ∧ |b - (d.D [na1, na2, j1, j2]).2| ≤ 1 / 2 / 10 ^ 8

theorem tokens_dynHead (s : Str) : tokens ("\n     Dynamical matrix in Cartesian axes\n\n".toList ++ s) =
    [] :: ["Dynamical".toList, "matrix".toList, "in".toList, "Cartesian".toList, "axes".toList] :: [] :: tokens s := rfl

theorem readDynLoop_step (nat : Nat) (d : DynQ) (hd : d.Narrow nat) (f : Nat) (s : DynData) (r : Str) :
    ∃ q D, readDynLoop nat (f + 1) s (tokens (writeDynQ nat d ++ r)) =
        readDynLoop nat f { s with q := s.q ++ [q], D := s.D ++ [D] } (tokens r) ∧ SameDyn nat d q D := by
  obtain ⟨E, e1, e2, -⟩ := readDynD_words nat d hd (dynOrder nat) (fun _ h => h) (fun _ => none) (tokens r)
  refine ⟨[roundTo 9 (d.q 0), roundTo 9 (d.q 1), roundTo 9 (d.q 2)], E, ?_,
    ⟨_, _, _, rfl, roundTo_near _ _, roundTo_near _ _, roundTo_near _ _⟩, ?_⟩
  · have ht : tokens (writeDynQ nat d ++ r) = [] :: ["Dynamical".toList, "matrix".toList, "in".toList, "Cartesian".toList,
        "axes".toList] :: [] :: [['q'], ['='], ['('], showFixed 9 (d.q 0), showFixed 9 (d.q 1), showFixed 9 (d.q 2), [')']] ::
        [] :: (((dynOrder nat).map fun p => dynWords d.D p) ++ tokens r) := by
      unfold writeDynQ
      rw [List.append_assoc, tokens_dynHead, List.append_assoc, List.cons_append, List.cons_append, tokens_fmt]
      · have : ∀ s : Str, tokens ('\n' :: s) = [] :: tokens s := fun s => rfl
        rw [this, tokens_dynRows]
        rfl
      · intro f hf
        simp only [List.mem_cons, List.not_mem_nil, or_false] at hf
        rcases hf with rfl | rfl | rfl | rfl | rfl | rfl | rfl
        · exact ⟨by simp, by decide⟩
        · exact ⟨by simp, by decide⟩
        · exact ⟨by simp, by decide⟩
        · exact fFixed_solid _ _ _ _
        · exact fFixed_solid _ _ _ _
        · exact fFixed_solid _ _ _ _
        · exact ⟨by simp, by decide⟩
      · intro f hf
        simp only [List.tail_cons, List.mem_cons, List.not_mem_nil, or_false] at hf
        rcases hf with rfl | rfl | rfl | rfl | rfl | rfl
        · exact Or.inl Nat.one_pos
        · exact Or.inl Nat.one_pos
        · exact Or.inl Nat.one_pos
        · exact fFixed_free 0 14 9 2 _ (by omega) (by omega) (by omega) (hd.q.1.trans (by norm_num))
        · exact fFixed_free 0 14 9 2 _ (by omega) (by omega) (by omega) (hd.q.2.trans (by norm_num))
        · exact Or.inl Nat.one_pos
    rw [ht]
    have c0 : ∀ t : List (List Str), cols ([] :: t) = cols t := fun t => rfl
    have hc : contains "dynamical matrix in cartesian axes".toList (joinLower ["Dynamical".toList, "matrix".toList,
        "in".toList, "Cartesian".toList, "axes".toList]) = true := by decide +kernel
    rw [readDynLoop, c0, cols_cons _ (by simp)]
    simp only [hc, if_true, c0]
    rw [cols_cons _ (by simp)]
    simp only [Option.bind_eq_bind, Option.bind_some, List.drop_succ_cons, List.drop_zero, List.take_succ_cons, List.take_zero,
      List.mapM_cons, List.mapM_nil, readFloat_showFixed 9 (show 0 < 9 by omega), Option.pure_def]
    cases h : dynOrder nat with
    | nil =>
      rw [h] at e1
      simp only [List.map_nil, List.nil_append, readDynD, Option.some.injEq, Prod.mk.injEq, and_true] at e1 ⊢
      rw [← e1]
      cases f with
      | zero => rfl
      | succ f =>
        simp only [Option.bind_some]
        rw [readDynLoop, readDynLoop, c0]
    | cons p L =>
      obtain ⟨i, o⟩ := p
      rw [h] at e1
      have e1' : readDynD ((i, o) :: L) (fun _ => none) ([] :: ((((i, o) :: L).map fun p => dynWords d.D p) ++ tokens r)) =
          some (E, tokens r) := by
        rw [← e1, readDynD, readDynD, c0]
      rw [e1']
      rfl
  · intro na1 h1 na2 h2 j1 h3 j2 h4
    refine ⟨_, _, e2 [na1, na2] j1 j2 ((mem_dynOrder _ _ _).2 ⟨⟨na1, h1, na2, h2, rfl⟩, h3⟩) h4, roundTo_near _ _,
      roundTo_near _ _⟩

theorem readDynLoop_list (nat : Nat) (dyn : List DynQ) (hd : ∀ d ∈ dyn, d.Narrow nat) (f : Nat) (s : DynData) (r : Str) :
    ∃ Q D, readDynLoop nat (f + dyn.length) s (tokens (dyn.flatMap (writeDynQ nat) ++ r)) =
        readDynLoop nat f { s with q := s.q ++ Q, D := s.D ++ D } (tokens r) ∧ Q.length = dyn.length ∧ D.length = dyn.length ∧
      ∀ (i : Nat) (d : DynQ) (q : List ℚ) (E : List Nat → Option (ℚ × ℚ)), dyn[i]? = some d → Q[i]? = some q → D[i]? = some E →
        SameDyn nat d q E := by
  induction dyn generalizing s with
  | nil => exact ⟨[], [], by simp, rfl, rfl, by simp⟩
  | cons d dyn ih =>
    obtain ⟨q, E, e1, e2⟩ := readDynLoop_step nat d (hd d (by simp)) (f + dyn.length) s (dyn.flatMap (writeDynQ nat) ++ r)
    obtain ⟨Q, D, f1, f2, f3, f4⟩ := ih (fun d h => hd d (by simp [h])) { s with q := s.q ++ [q], D := s.D ++ [E] }
    refine ⟨q :: Q, E :: D, ?_, by simp [f2], by simp [f3], ?_⟩
    · rw [List.flatMap_cons, List.append_assoc, List.length_cons, ← Nat.add_assoc, e1, f1]
      simp
    · intro i d' q' E' h1 h2 h3
      cases i with
      | zero =>
        simp only [List.getElem?_cons_zero, Option.some.injEq] at h1 h2 h3
        rw [← h1, ← h2, ← h3]
        exact e2
      | succ i =>
        simp only [List.getElem?_cons_succ] at h1 h2 h3
        exact f4 i d' q' E' h1 h2 h3

/-- Specification: dielectric tensor as read. -/
def SameEpsil : Option Rigid → Option (List (List ℚ)) → Prop
  | none, e => e = none
  | some r, e => ∃ T, e = some T ∧ SameTable 12 3 r.epsil T

theorem tokens_dielectric (s : Str) : tokens ("\n     Dielectric tensor\n".toList ++ s) =
    [] :: ["Dielectric".toList, "tensor".toList] :: tokens s := rfl

theorem tokens_charges (s : Str) : tokens ("\n     Effective charges\n".toList ++ s) =
    [] :: ["Effective".toList, "charges".toList] :: tokens s := rfl

/-- What is read and what is lost: the effective charges never arrive. -/
theorem readDyn_write (prim : Int → List ℚ → Option (List (List ℚ))) (atoms species : List (Str × ℚ)) (hp : Plain atoms)
    (hs : IsSpecies atoms species) (alat : ℚ) (ha : alat ≠ 0) (at_ tau : Nat → Nat → ℚ) (rigid : Option Rigid) (dyn : List DynQ)
    (hd : ∀ d ∈ dyn, d.Narrow atoms.length) (fuel : Nat) (hf : dyn.length + 2 ≤ fuel) :
    ∃ c s, readDyn prim fuel (writeDyn species alat at_ atoms tau rigid dyn) = some (c, s) ∧
      SameCrystal alat at_ atoms tau c ∧ SameEpsil rigid s.epsil ∧ s.zeu = none ∧
      s.q.length = dyn.length ∧ s.D.length = dyn.length ∧
      ∀ (i : Nat) (d : DynQ) (q : List ℚ) (E : List Nat → Option (ℚ × ℚ)), dyn[i]? = some d → s.q[i]? = some q →
        s.D[i]? = some E → SameDyn atoms.length d q E := by
  have hs1 : ∀ s ∈ species, Solid s.1 := fun s h => hp.solid s ((hs.mem s).1 h)
  have hc := crystal_same atoms species hp hs alat ha at_ tau
  have hlen : (crystalRead species alat at_ atoms tau).atoms.length = atoms.length := by simp [crystalRead]
  have c0 : ∀ t : List (List Str), cols ([] :: t) = cols t := fun t => rfl
  obtain ⟨f, rfl⟩ : ∃ f, fuel = f + 2 + dyn.length := ⟨fuel - (dyn.length + 2), by omega⟩
  cases rigid with
  | none =>
    obtain ⟨Q, D, f1, f2, f3, f4⟩ := readDynLoop_list atoms.length dyn hd (f + 2) ⟨[], [], none, none⟩ []
    refine ⟨crystalRead species alat at_ atoms tau, ⟨Q, D, none, none⟩, ?_, hc, rfl, rfl, f2, f3, f4⟩
    unfold readDyn writeDyn
    rw [readStructure_words prim true species hs1 alat at_ atoms (species_labels _ _ hs)]
    simp only [Option.bind_eq_bind, Option.bind_some, if_true, hlen, f1]
    rfl
  | some e =>
    obtain ⟨Q, D, f1, f2, f3, f4⟩ := readDynLoop_list atoms.length dyn hd (f + 2) ⟨[], [], none, none⟩
      ("\n     Dielectric tensor\n".toList ++ (writeEpsil e ++ ("\n     Effective charges\n".toList ++
        writeZeu "     atom #".toList atoms.length e)))
    refine ⟨crystalRead species alat at_ atoms tau, ⟨Q, D, some ((List.range 3).map fun x => round3 12 (e.epsil x)), none⟩, ?_, hc,
      ⟨_, rfl, table_same 12 3 e.epsil⟩, rfl, f2, f3, f4⟩
    unfold readDyn writeDyn
    rw [readStructure_words prim true species hs1 alat at_ atoms (species_labels _ _ hs)]
    simp only [Option.bind_eq_bind, Option.bind_some, if_true, hlen, f1]
    rw [tokens_dielectric, readDynLoop, c0, cols_cons _ (by simp)]
    have k1 : contains "dynamical matrix in cartesian axes".toList (joinLower ["Dielectric".toList, "tensor".toList]) = false := by
      decide +kernel
    have k2 : contains "dielectric tensor".toList (joinLower ["Dielectric".toList, "tensor".toList]) = true := by
      decide +kernel
    have k3 : contains "dynamical matrix in cartesian axes".toList (joinLower ["Effective".toList, "charges".toList]) = false := by
      decide +kernel
    have k4 : contains "dielectric tensor".toList (joinLower ["Effective".toList, "charges".toList]) = false := by
      decide +kernel
    have k5 : contains "effective charges e-u".toList (joinLower ["Effective".toList, "charges".toList]) = false := by
      decide +kernel
    unfold writeEpsil
    simp only [k1, k2, Bool.false_eq_true, if_false, if_true]
    rw [tokens_table _ _ _ _ (by omega), tokens_charges, table_rows 12 (by omega)]
    simp only [Option.bind_eq_bind, Option.bind_some]
    rw [readDynLoop, c0, cols_cons _ (by simp)]
    simp only [k3, k4, k5, Bool.false_eq_true, if_false]
    simp

/-- C113: dynamical matrices, wave vectors (in units of `2 π / alat`), crystal structure and dielectric tensor are read as they
were written, up to rounding, if no column is full. Missing: the effective charges, see `C113_dyn_violated`. -/
theorem C113_dyn_partial (prim : Int → List ℚ → Option (List (List ℚ))) (atoms species : List (Str × ℚ)) (hp : Plain atoms)
    (hs : IsSpecies atoms species) (alat : ℚ) (ha : alat ≠ 0) (at_ tau : Nat → Nat → ℚ) (rigid : Option Rigid) (dyn : List DynQ)
    (hd : ∀ d ∈ dyn, d.Narrow atoms.length) (fuel : Nat) (hf : dyn.length + 2 ≤ fuel) :
    ∃ c s, readDyn prim fuel (writeDyn species alat at_ atoms tau rigid dyn) = some (c, s) ∧
      SameCrystal alat at_ atoms tau c ∧ SameEpsil rigid s.epsil ∧ s.q.length = dyn.length ∧ s.D.length = dyn.length ∧
      ∀ (i : Nat) (d : DynQ) (q : List ℚ) (E : List Nat → Option (ℚ × ℚ)), dyn[i]? = some d → s.q[i]? = some q →
        s.D[i]? = some E → SameDyn atoms.length d q E := by
  obtain ⟨c, s, h1, h2, h3, -, h4⟩ := readDyn_write prim atoms species hp hs alat ha at_ tau rigid dyn hd fuel hf
  exact ⟨c, s, h1, h2, h3, h4⟩

/-- C113: effective charges in files with dynamical matrices are never read again, whatever their values. -/
theorem C113_dyn_violated (prim : Int → List ℚ → Option (List (List ℚ))) (atoms species : List (Str × ℚ)) (hp : Plain atoms)
    (hs : IsSpecies atoms species) (alat : ℚ) (ha : alat ≠ 0) (at_ tau : Nat → Nat → ℚ) (e : Rigid) (dyn : List DynQ)
    (hd : ∀ d ∈ dyn, d.Narrow atoms.length) (fuel : Nat) (hf : dyn.length + 2 ≤ fuel) :
    ∃ c s, readDyn prim fuel (writeDyn species alat at_ atoms tau (some e) dyn) = some (c, s) ∧ s.epsil ≠ none ∧ s.zeu = none := by
  obtain ⟨c, s, h1, -, h3, h4, -⟩ := readDyn_write prim atoms species hp hs alat ha at_ tau (some e) dyn hd fuel hf
  obtain ⟨T, h5, -⟩ := h3
  exact ⟨c, s, h1, by simp [h5], h4⟩

example : ∃ c s, readDyn (fun _ _ => none) 3 (writeDyn [(['B'], 21 / 2), (['N'], 14)] 5 (fun x y => if x = y then 5 else 0)
      [(['B'], 21 / 2), (['N'], 14)] (fun na x => if na = 1 then (x : ℚ) else 0) (some ⟨fun x y => if x = y then 3 else 0, fun _ _ _ => 1⟩)
      [⟨fun x => x / 4, fun i => (i.getD 0 0, -1 / 3)⟩]) = some (c, s) ∧ s.q.length = 1 := by
  obtain ⟨c, s, h, -, -, h2, -⟩ := C113_dyn_partial (fun _ _ => none) [(['B'], 21 / 2), (['N'], 14)] _ plain_BN.1 plain_BN.2 5
    (by norm_num) (fun x y => if x = y then 5 else 0) (fun na x => if na = 1 then (x : ℚ) else 0)
    (some ⟨fun x y => if x = y then 3 else 0, fun _ _ _ => 1⟩) [⟨fun x => x / 4, fun i => (i.getD 0 0, -1 / 3)⟩] (by
      intro d hd
      rw [List.mem_singleton] at hd
      subst hd
      exact ⟨by norm_num [abs_le], fun _ _ _ _ _ _ _ _ => by norm_num [abs_le]⟩) 3 (by simp)
  exact ⟨c, s, h, h2⟩

end Verif.Text
