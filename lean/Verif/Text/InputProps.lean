import Verif.Text.Inputs

/-!
# C121: input files are read as they have been written
-/

namespace Verif.Namelist

open Verif.Text

/-! ### Numbered parameters -/

/-- Lines with numbered parameters. -/
def numLines (key : Str) : Nat → List Item → List Line
  | _, [] => []
  | n, i :: l => (if falsy i then [] else [some (indexed key n, i)]) ++ numLines key (n + 1) l

theorem numLines_text (rf : ℚ → Str) (key : Str) (n : Nat) (l : List Item) :
    (numLines key n l).flatMap (lineText rf) = numbered rf key n l := by
  induction l generalizing n with
  | nil => rfl
  | cons i l ih =>
    rw [numLines, numbered, List.flatMap_append, ih]
    split <;> simp [lineText]

theorem indexed_good (key : Str) (h : Good key) (n : Nat) : Good (indexed key n) := by
  refine ⟨by simp [indexed], ?_, ?_⟩
  · have := h.head
    cases key with
    | nil => exact absurd rfl h.ne
    | cons c k => simpa [indexed] using this
  · intro c hc
    simp only [indexed, List.mem_append, List.mem_cons, List.not_mem_nil, or_false] at hc
    rcases hc with (hc | rfl | hc) | rfl
    · exact h.calm c hc
    · decide
    · obtain ⟨d, hd, rfl⟩ := showNat_digits n c hc
      exact calm_digit d hd
    · decide

theorem numLines_ok (rf : ℚ → Str) (key : Str) (hk : Good key) (n : Nat) (l : List Item)
    (h : ∀ i ∈ l, falsy i = false → ItemOk rf i) : ∀ x ∈ numLines key n l, LineOk rf x := by
  induction l generalizing n with
  | nil => simp [numLines]
  | cons i l ih =>
    intro x hx
    rw [numLines, List.mem_append] at hx
    rcases hx with hx | hx
    · split at hx
      · simp at hx
      · next hi =>
        rw [List.mem_singleton] at hx
        subst hx
        exact ⟨indexed_good key hk n, h i (by simp) (by simpa using hi)⟩
    · exact ih (n + 1) (fun i hi => h i (by simp [hi])) x hx

/-- Names of lists. -/
structure ListKey (key : Str) : Prop where
  good : Good key
  lower : key.map Char.toLower = key
  paren : '(' ∉ key

theorem keyOf_indexed (key : Str) (h : ListKey key) (j : Nat) : keyOf (indexed key (j + 1)) = (key, (j : Int)) := by
  have hd : (showNat (j + 1)).map Char.toLower = showNat (j + 1) := by
    refine (List.map_congr_left fun c hc => ?_).trans (List.map_id _)
    obtain ⟨d, hd, rfl⟩ := showNat_digits _ c hc
    have : ∀ d : Fin 10, (digitChar d).toLower = digitChar d := by decide
    exact this ⟨d, hd⟩
  have e : (indexed key (j + 1)).map Char.toLower = key ++ '(' :: (showNat (j + 1) ++ [')']) := by
    rw [indexed, List.map_append, List.map_append, List.map_cons, h.lower, hd]
    simp
  have ht := takeWhile_append (p := fun c => c ≠ '(') key '(' (showNat (j + 1) ++ [')'])
    (fun c hc => by
      have : c ≠ '(' := fun e => h.paren (e ▸ hc)
      simpa using this) (by simp)
  have hs : (showNat (j + 1) ++ [')']).dropWhile (fun c => decide (c = '(' ∨ c = ' ')) = showNat (j + 1) ++ [')'] := by
    cases hn : showNat (j + 1) with
    | nil => exact absurd hn (showNat_ne _)
    | cons c s =>
      obtain ⟨d, hd, rfl⟩ := showNat_digits (j + 1) c (by simp [hn])
      rw [List.cons_append, List.dropWhile_cons_of_neg]
      have : ∀ d : Fin 10, ¬ decide (digitChar d = '(' ∨ digitChar d = ' ') = true := by decide
      exact this ⟨d, hd⟩
  have hw := (takeWhile_append (p := isDig) (showNat (j + 1)) ')' [] (fun c hc => by
    obtain ⟨d, hd, rfl⟩ := showNat_digits _ c hc
    exact isDig_digitChar d hd) (by decide)).1
  unfold keyOf
  simp only [e]
  rw [ht.1, ht.2, List.dropWhile_cons_of_pos (by simp), hs, hw, if_neg (showNat_ne _), readNat_showNat]
  simp

/-- The elements up to the last one that is not taken for false. -/
def trim : List Item → List Item
  | [] => []
  | i :: l => if falsy i = true ∧ trim l = [] then [] else i :: trim l

/-- Elements which are taken for false are not written. -/
def blank (i : Item) : Item := if falsy i then .none else i

theorem sliceSet_end (l : List Item) (i : Item) : sliceSet l (l.length : Int) i = l ++ [i] := by
  have h1 : bound l.length (l.length : Int) = l.length := by
    unfold bound
    rw [if_neg (by omega)]
    simp
  have h2 : bound l.length ((l.length : Int) + 1) = l.length := by
    unfold bound
    rw [if_neg (by omega)]
    omega
  rw [sliceSet, h1, h2]
  simp

theorem pad_pad (l : List Item) (j : Nat) (h : l.length ≤ j) : pad l ((j + 1 : Nat) : Int) = pad l (j : Int) ++ [.none] := by
  unfold pad
  rw [List.append_assoc, ← List.replicate_succ']
  congr 2
  omega

theorem pad_length (l : List Item) (j : Nat) (h : l.length ≤ j) : (pad l (j : Int)).length = j := by
  unfold pad
  rw [List.length_append, List.length_replicate]
  omega

theorem pad_self (l : List Item) : pad l (l.length : Int) = l := by
  simp [pad]

/-- Values of numbered parameters. -/
theorem lookup_numLines (key : Str) (hk : ListKey key) (j : Nat) (l : List Item) (d : Raw)
    (hd : ((d.lookup key).getD []).length ≤ j) :
    (collect d (numLines key (j + 1) l)).lookup key = if trim l = [] then d.lookup key
      else some (pad ((d.lookup key).getD []) (j : Int) ++ (trim l).map blank) := by
  induction l generalizing j d with
  | nil => rfl
  | cons i l ih =>
    rw [numLines, collect_append]
    by_cases hi : falsy i = true
    · rw [if_pos hi]
      simp only [collect]
      rw [ih (j + 1) d (by omega), pad_pad _ _ hd]
      by_cases ht : trim l = []
      · simp [trim, ht, hi]
      · simp [trim, ht, hi, blank]
    · rw [if_neg hi]
      simp only [collect]
      have ha : (assign d (indexed key (j + 1)) i).lookup key = some (pad ((d.lookup key).getD []) (j : Int) ++ [i]) := by
        unfold assign
        simp only [keyOf_indexed key hk j]
        rw [lookup_put, if_pos rfl, lookup_put, if_pos rfl]
        simp only [Option.getD_some]
        have := sliceSet_end (pad ((d.lookup key).getD []) (j : Int)) i
        rw [pad_length _ _ hd] at this
        rw [this]
      have hlen : (((assign d (indexed key (j + 1)) i).lookup key).getD []).length = j + 1 := by
        rw [ha, Option.getD_some, List.length_append, pad_length _ _ hd]
        rfl
      rw [ih (j + 1) _ (by omega), ha]
      simp only [Option.getD_some]
      have hself := pad_self (pad ((d.lookup key).getD []) (j : Int) ++ [i])
      rw [List.length_append, pad_length _ _ hd, List.length_singleton] at hself
      rw [hself]
      by_cases ht : trim l = []
      · simp [trim, ht, hi, blank]
      · simp [trim, ht, hi, blank]

theorem trim_truthy (l : List Item) (h : ∀ i ∈ l, falsy i = false) : trim l = l ∧ l.map blank = l := by
  induction l with
  | nil => exact ⟨rfl, rfl⟩
  | cons i l ih =>
    have hi := h i (by simp)
    have := ih fun i hi => h i (by simp [hi])
    simp [trim, hi, this.1, this.2, blank]

theorem numLines_names (key : Str) (hk : ListKey key) (j : Nat) (l : List Item) :
    ∀ k i, some (k, i) ∈ numLines key (j + 1) l → (keyOf k).1 = key := by
  induction l generalizing j with
  | nil => simp [numLines]
  | cons a l ih =>
    intro k i hm
    rw [numLines, List.mem_append] at hm
    rcases hm with hm | hm
    · split at hm
      · simp at hm
      · rw [List.mem_singleton, Option.some.injEq, Prod.mk.injEq] at hm
        obtain ⟨rfl, rfl⟩ := hm
        rw [keyOf_indexed key hk]
    · exact ih (j + 1) k i hm

/-! ### `ph.x`, `q2r.x` -/

/-- **C121.** Parameters of `ph.x` which have been written are read without changes, and nothing else is read. -/
theorem C121_ph (rf : ℚ → Str) (fuel : Nat) (hf : 2 ≤ fuel) (struct : Str → Option Val)
    (h : ∀ k v, struct k = some v → ∃ i, v = .one i ∧ ItemOk rf i) :
    ∃ d, readInput fuel (writePh rf struct) = some d ∧
      ∀ k, d.lookup k = if k ∈ ["prefix", "outdir", "fildyn", "fildvscf", "ldisp", "nq1", "nq2", "nq3", "tr2_ph", "alpha_mix",
        "cdfpt", "subspace", "cdfpt_bnd", "cdfpt_orb"].map tx then struct k else none := by
  have := read_groups rf fuel hf (tx "INPUTPH") (by decide +kernel) (by decide +kernel) struct phKeys (fun k _ v hv => h k v hv)
    (fun k hk => plain_of k ((by decide +kernel : ∀ k ∈ phKeys.flatten, plainB k = true) k hk)) (by decide +kernel) [] tailOk_nil
  obtain ⟨d, hd, hk⟩ := this
  refine ⟨d, ?_, hk⟩
  rw [← hd, List.append_nil]
  rfl

/-- **C121.** Parameters of `q2r.x` which have been written are read without changes, and nothing else is read. -/
theorem C121_q2r (rf : ℚ → Str) (fuel : Nat) (hf : 2 ≤ fuel) (struct : Str → Option Val)
    (h : ∀ k v, struct k = some v → ∃ i, v = .one i ∧ ItemOk rf i) :
    ∃ d, readInput fuel (writeQ2r rf struct) = some d ∧
      ∀ k, d.lookup k = if k ∈ ["fildyn", "flfrc", "zasr"].map tx then struct k else none := by
  have := read_groups rf fuel hf (tx "INPUT") (by decide +kernel) (by decide +kernel) struct [q2rKeys] (fun k _ v hv => h k v hv)
    (fun k hk => plain_of k ((by decide +kernel : ∀ k ∈ [q2rKeys].flatten, plainB k = true) k hk)) (by decide +kernel) [] tailOk_nil
  obtain ⟨d, hd, hk⟩ := this
  refine ⟨d, ?_, hk⟩
  rw [← hd, List.append_nil]
  rfl

/-! ### `epw.x` -/

/-- List of projections or other lines. -/
def listOf : Option Val → List Item
  | some (.many l) => l
  | some (.one (.str s)) => s.map fun c => .str [c]
  | _ => []

/-- Lines of the input file of `epw.x`. -/
def epwLines (struct : Str → Option Val) : List Line :=
  groupLines struct epwKeys1 ++ none :: (numLines (tx "proj") 1 (listOf (struct (tx "proj"))) ++ none ::
    (keyLines struct [tx "num_iter"] ++ (numLines (tx "wdata") 1 (listOf (struct (tx "wdata"))) ++ none ::
      groupLines struct epwKeys2)))

theorem numberedOpt_text (rf : ℚ → Str) (struct : Str → Option Val) (key : Str) :
    numberedOpt rf struct key = (numLines key 1 (listOf (struct key))).flatMap (lineText rf) := by
  rw [numLines_text, numberedOpt]
  cases struct key with
  | none => rfl
  | some v =>
    cases v with
    | many l => rfl
    | one i => cases i <;> rfl

/-- Names of single parameters of `epw.x`. -/
def epwSingle : List String :=
  ["prefix", "outdir", "dvscf_dir", "wannierize", "elph", "epbwrite", "epwwrite", "epbread", "epwread", "use_ws", "nbndsub",
    "bands_skipped", "dis_win_min", "dis_win_max", "dis_froz_min", "dis_froz_max", "num_iter", "nk1", "nk2", "nk3", "nq1",
    "nq2", "nq3", "nkf1", "nkf2", "nkf3", "nqf1", "nqf2", "nqf3"]

theorem mid (X P Y : List Line) (k : Str) (h : ∀ k' i, some (k', i) ∈ Y → k ≠ (keyOf k').1) :
    (collect [] (X ++ (P ++ Y))).lookup k = (collect (collect [] X) P).lookup k := by
  rw [collect_append, collect_append, lookup_collect_ne _ _ _ h]

/-- Names in lines. -/
def Names (ls : List Line) (ks : List Str) : Prop := ∀ k i, some (k, i) ∈ ls → (keyOf k).1 ∈ ks

theorem Names.append {ls ms : List Line} {ks js : List Str} (h : Names ls ks) (h' : Names ms js) :
    Names (ls ++ ms) (ks ++ js) := by
  intro k i hm
  rw [List.mem_append] at hm ⊢
  exact hm.imp (h k i) (h' k i)

theorem Names.cons {ls : List Line} {ks : List Str} (h : Names ls ks) : Names (none :: ls) ks := by
  intro k i hm
  rw [List.mem_cons] at hm
  rcases hm with hm | hm
  · simp at hm
  · exact h k i hm

theorem Names.ne {ls : List Line} {ks : List Str} (h : Names ls ks) (k : Str) (hk : k ∉ ks) :
    ∀ k' i, some (k', i) ∈ ls → k ≠ (keyOf k').1 := fun k' i hm e => hk (e ▸ h k' i hm)

theorem names_keyLines (struct : Str → Option Val) (keys : List Str) (hp : ∀ k ∈ keys, Plain k) :
    Names (keyLines struct keys) keys := by
  intro k i hm
  have := ((mem_keyLines struct keys k i).1 hm).1
  rwa [(hp k this).key]

theorem mem_groupLines (struct : Str → Option Val) (gs : List (List Str)) (k : Str) (i : Item)
    (h : some (k, i) ∈ groupLines struct gs) : some (k, i) ∈ keyLines struct gs.flatten := by
  induction gs with
  | nil => exact h
  | cons g r ih =>
    cases r with
    | nil => simpa [groupLines] using h
    | cons g' r =>
      have e : keyLines struct (g :: g' :: r).flatten = keyLines struct g ++ keyLines struct (g' :: r).flatten := by
        simp [keyLines]
      rw [groupLines, List.mem_append, List.mem_cons] at h
      · rw [e, List.mem_append]
        rcases h with h | h | h
        · exact Or.inl h
        · simp at h
        · exact Or.inr (ih h)
      · simp

theorem names_groupLines (struct : Str → Option Val) (gs : List (List Str)) (hp : ∀ k ∈ gs.flatten, Plain k) :
    Names (groupLines struct gs) gs.flatten := fun k i hm =>
  names_keyLines struct gs.flatten hp k i (mem_groupLines struct gs k i hm)

theorem names_numLines (key : Str) (hk : ListKey key) (l : List Item) : Names (numLines key 1 l) [key] := by
  intro k i hm
  rw [numLines_names key hk 0 l k i hm]
  simp

theorem listKey_of (key : Str) (h : plainB key = true) (h1 : key.map Char.toLower = key) (h2 : '(' ∉ key) : ListKey key :=
  ⟨(plain_of key h).good, h1, h2⟩

/-- The value of a group of parameters. -/
theorem lookup_group (rf : ℚ → Str) (struct : Str → Option Val) (gs : List (List Str)) (h : Fine rf struct gs.flatten)
    (hp : ∀ k ∈ gs.flatten, Plain k) (hn : gs.flatten.Nodup) (d : Raw) (hd : ∀ k ∈ gs.flatten, d.lookup k = none) (k : Str)
    (hk : k ∈ gs.flatten) : ((collect d (groupLines struct gs)).lookup k).map single = struct k := by
  rw [collect_groupLines, lookup_keyLines rf struct _ h hp hn d hd k hk]
  cases hv : struct k with
  | none => rfl
  | some v =>
    obtain ⟨i, rfl, _⟩ := h k hk v hv
    rfl

/-- The value of numbered parameters, none of which is taken for false, after `read_epw` or the like has put single values
into lists. -/
theorem lookup_numbered (struct : Str → Option Val) (key : Str) (hk : ListKey key) (d : Raw) (hd : d.lookup key = none)
    (h : ∀ v, struct key = some v → ∃ l, v = .many l ∧ l ≠ [] ∧ ∀ i ∈ l, falsy i = false) :
    ((collect d (numLines key 1 (listOf (struct key)))).lookup key).map single = match struct key with
      | some (.many l) => some (single l)
      | _ => none := by
  have := lookup_numLines key hk 0 (listOf (struct key)) d (by simp [hd])
  rw [this]
  cases hv : struct key with
  | none => simp [listOf, trim, hd]
  | some v =>
    obtain ⟨l, rfl, hl, ht⟩ := h v hv
    have e := trim_truthy l ht
    rw [listOf, e.1, if_neg hl, e.2, hd]
    simp [pad]

theorem lookup_wrap (d : Dict) (key k : Str) : (wrap d key).lookup k =
    if k = key then (d.lookup key).map fun v => match v with
      | .one i => .many [i]
      | v => v else d.lookup k := by
  unfold wrap
  cases hv : d.lookup key with
  | none =>
    by_cases e : k = key
    · subst e
      simp [hv]
    · simp [e]
  | some v =>
    cases v with
    | one i => simp only [lookup_put, Option.map_some]
    | many l =>
      by_cases e : k = key
      · subst e
        simp [hv]
      · simp [e]

theorem wrap_single (l : List Item) : (match single l with
      | .one i => .many [i]
      | v => v) = Val.many l := by
  match l with
  | [] => rfl
  | [_] => rfl
  | _ :: _ :: _ => rfl

/-- **C121.** Parameters of `epw.x`, including numbered ones, which have been written are read without changes, and nothing
else is read. -/
theorem C121_epw (rf : ℚ → Str) (fuel : Nat) (hf : 2 ≤ fuel) (struct : Str → Option Val)
    (h : ∀ k ∈ epwSingle.map tx, ∀ v, struct k = some v → ∃ i, v = .one i ∧ ItemOk rf i)
    (hl : ∀ k ∈ ["proj", "wdata"].map tx, ∀ v, struct k = some v →
      ∃ l, v = .many l ∧ l ≠ [] ∧ ∀ i ∈ l, ItemOk rf i ∧ falsy i = false) :
    ∃ d, readEpw fuel (writeEpw rf struct) = some d ∧
      ∀ k, d.lookup k = if k ∈ (epwSingle ++ ["proj", "wdata"]).map tx then struct k else none := by
  have hp1 : ∀ k ∈ epwKeys1.flatten, Plain k := fun k hk => plain_of k ((by decide +kernel : ∀ k ∈ epwKeys1.flatten, plainB k = true) k hk)
  have hp2 : ∀ k ∈ epwKeys2.flatten, Plain k := fun k hk => plain_of k ((by decide +kernel : ∀ k ∈ epwKeys2.flatten, plainB k = true) k hk)
  have hp3 : ∀ k ∈ [tx "num_iter"], Plain k := fun k hk => plain_of k ((by decide +kernel : ∀ k ∈ [tx "num_iter"], plainB k = true) k hk)
  have hkp : ListKey (tx "proj") := listKey_of _ (by decide +kernel) (by decide +kernel) (by decide +kernel)
  have hkw : ListKey (tx "wdata") := listKey_of _ (by decide +kernel) (by decide +kernel) (by decide +kernel)
  have hf1 : Fine rf struct epwKeys1.flatten := fun k hk => h k ((by decide +kernel : ∀ k ∈ epwKeys1.flatten, k ∈ epwSingle.map tx) k hk)
  have hf2 : Fine rf struct epwKeys2.flatten := fun k hk => h k ((by decide +kernel : ∀ k ∈ epwKeys2.flatten, k ∈ epwSingle.map tx) k hk)
  have hf3 : Fine rf struct [tx "num_iter"] := fun k hk => h k ((by decide +kernel : ∀ k ∈ [tx "num_iter"], k ∈ epwSingle.map tx) k hk)
  have hlp := hl (tx "proj") (by decide +kernel)
  have hlw := hl (tx "wdata") (by decide +kernel)
  have hitems : ∀ key, (∀ v, struct key = some v → ∃ l, v = .many l ∧ l ≠ [] ∧ ∀ i ∈ l, ItemOk rf i ∧ falsy i = false) →
      ∀ i ∈ listOf (struct key), falsy i = false → ItemOk rf i := by
    intro key hkey i hi _
    cases hv : struct key with
    | none => simp [hv, listOf] at hi
    | some v =>
      obtain ⟨l, rfl, _, ht⟩ := hkey v hv
      rw [hv] at hi
      exact (ht i hi).1
  have hok : ∀ l ∈ epwLines struct, LineOk rf l := by
    intro l hm
    simp only [epwLines, List.mem_append, List.mem_cons] at hm
    rcases hm with hm | rfl | hm | rfl | hm | hm | rfl | hm
    · exact groupLines_ok rf struct _ hf1 (fun k hk => (hp1 k hk).good) l hm
    · trivial
    · exact numLines_ok rf _ hkp.good 1 _ (hitems _ hlp) l hm
    · trivial
    · exact keyLines_ok rf struct _ hf3 (fun k hk => (hp3 k hk).good) l hm
    · exact numLines_ok rf _ hkw.good 1 _ (hitems _ hlw) l hm
    · trivial
    · exact groupLines_ok rf struct _ hf2 (fun k hk => (hp2 k hk).good) l hm
  obtain ⟨d, hd, hk⟩ := readInput_block rf fuel hf (tx "INPUTEPW", epwLines struct)
    ⟨by simp [tx], by simp only; decide, hok⟩ [] tailOk_nil
  have ht : blockText rf (tx "INPUTEPW", epwLines struct) ++ [] = writeEpw rf struct := by
    have g1 := groupLines_text rf struct epwKeys1 hf1
    have g2 := groupLines_text rf struct epwKeys2 hf2
    have g3 := keyLines_text rf struct [tx "num_iter"] hf3
    have e : tx "&INPUTEPW\n" = '&' :: tx "INPUTEPW" ++ ['\n'] := by decide +kernel
    have e' : tx "/\n" = ['/', '\n'] := by decide +kernel
    unfold writeEpw blockText epwLines
    rw [e, e', numberedOpt_text, numberedOpt_text]
    simp only [List.flatMap_append, List.flatMap_cons, g1, g2, g3, lineText, List.append_nil, List.append_assoc,
      List.cons_append, List.nil_append]
  have n1 := names_groupLines struct epwKeys1 hp1
  have n2 := names_groupLines struct epwKeys2 hp2
  have n3 := names_keyLines struct [tx "num_iter"] hp3
  have np := names_numLines _ hkp (listOf (struct (tx "proj")))
  have nw := names_numLines _ hkw (listOf (struct (tx "wdata")))
  have key : ∀ k, d.lookup k = if k ∈ epwSingle.map tx then struct k else
      if k ∈ ["proj", "wdata"].map tx then (match struct k with
        | some (.many l) => some (single l)
        | _ => none) else none := by
    intro k
    rw [hk]
    simp only
    by_cases h1 : k ∈ epwKeys1.flatten
    · rw [if_pos ((by decide +kernel : ∀ k ∈ epwKeys1.flatten, k ∈ epwSingle.map tx) k h1)]
      have := mid [] (groupLines struct epwKeys1) _ k
        ((np.append (n3.append (nw.append n2.cons)).cons).cons.ne k
          ((by decide +kernel : ∀ k ∈ epwKeys1.flatten, k ∉ [tx "proj"] ++ ([tx "num_iter"] ++ ([tx "wdata"] ++ epwKeys2.flatten))) k h1))
      rw [List.nil_append] at this
      rw [epwLines, this]
      exact lookup_group rf struct _ hf1 hp1 (by decide +kernel) [] (by simp) k h1
    · by_cases h2 : k ∈ epwKeys2.flatten
      · rw [if_pos ((by decide +kernel : ∀ k ∈ epwKeys2.flatten, k ∈ epwSingle.map tx) k h2)]
        have e : epwLines struct = (groupLines struct epwKeys1 ++ none :: (numLines (tx "proj") 1 (listOf (struct (tx "proj"))) ++ none ::
          (keyLines struct [tx "num_iter"] ++ (numLines (tx "wdata") 1 (listOf (struct (tx "wdata"))) ++ [none])))) ++
            (groupLines struct epwKeys2 ++ []) := by
          simp [epwLines]
        have hX := n1.append (np.append (n3.append (nw.append (Names.cons (ls := []) (ks := []) (fun k i hm => by simp at hm)))).cons).cons
        rw [e, mid _ _ _ _ (by simp)]
        refine lookup_group rf struct _ hf2 hp2 (by decide +kernel) _ (fun k' hk' => ?_) k h2
        rw [lookup_collect_ne _ _ _ (hX.ne k' ((by decide +kernel : ∀ k ∈ epwKeys2.flatten,
          k ∉ epwKeys1.flatten ++ ([tx "proj"] ++ ([tx "num_iter"] ++ ([tx "wdata"] ++ [])))) k' hk'))]
        rfl
      · by_cases h3 : k = tx "num_iter"
        · rw [if_pos (h3 ▸ (by decide +kernel : tx "num_iter" ∈ epwSingle.map tx))]
          have e : epwLines struct = (groupLines struct epwKeys1 ++ none :: (numLines (tx "proj") 1 (listOf (struct (tx "proj"))) ++ [none])) ++
            (groupLines struct [[tx "num_iter"]] ++ (numLines (tx "wdata") 1 (listOf (struct (tx "wdata"))) ++ none :: groupLines struct epwKeys2)) := by
            simp [epwLines, groupLines]
          have hX := n1.append (np.append (Names.cons (ls := []) (ks := []) (fun k i hm => by simp at hm))).cons
          rw [e, mid _ _ _ _ ((nw.append n2.cons).ne k (h3 ▸ (by decide +kernel : tx "num_iter" ∉ [tx "wdata"] ++ epwKeys2.flatten)))]
          refine lookup_group rf struct [[tx "num_iter"]] hf3 hp3 (by decide +kernel) _ (fun k' hk' => ?_) k (by simp [h3])
          rw [lookup_collect_ne _ _ _ (hX.ne k' ((by decide +kernel : ∀ k ∈ [[tx "num_iter"]].flatten,
            k ∉ epwKeys1.flatten ++ ([tx "proj"] ++ [])) k' hk'))]
          rfl
        · have hs : k ∉ epwSingle.map tx := fun hm =>
            ((by decide +kernel : ∀ k ∈ epwSingle.map tx, k ∈ epwKeys1.flatten ∨ k ∈ epwKeys2.flatten ∨ k = tx "num_iter") k hm).elim h1
              fun e => e.elim h2 h3
          rw [if_neg hs]
          by_cases h4 : k = tx "proj"
          · rw [if_pos (h4 ▸ (by decide +kernel : tx "proj" ∈ ["proj", "wdata"].map tx))]
            have e : epwLines struct = (groupLines struct epwKeys1 ++ [none]) ++ (numLines (tx "proj") 1 (listOf (struct (tx "proj"))) ++
              (none :: (keyLines struct [tx "num_iter"] ++ (numLines (tx "wdata") 1 (listOf (struct (tx "wdata"))) ++ none :: groupLines struct epwKeys2)))) := by
              simp [epwLines]
            have hX := n1.append (Names.cons (ls := []) (ks := []) (fun k i hm => by simp at hm))
            rw [e, mid _ _ _ _ ((n3.append (nw.append n2.cons)).cons.ne k (h4 ▸ (by decide +kernel : tx "proj" ∉ [tx "num_iter"] ++ ([tx "wdata"] ++ epwKeys2.flatten)))), h4]
            refine lookup_numbered struct _ hkp _ ?_ fun v hv => ?_
            · rw [lookup_collect_ne _ _ _ (hX.ne (tx "proj") (by decide +kernel))]
              rfl
            · obtain ⟨l, e, h0, ht⟩ := hlp v hv
              exact ⟨l, e, h0, fun i hi => (ht i hi).2⟩
          · by_cases h5 : k = tx "wdata"
            · rw [if_pos (h5 ▸ (by decide +kernel : tx "wdata" ∈ ["proj", "wdata"].map tx))]
              have e : epwLines struct = (groupLines struct epwKeys1 ++ none :: (numLines (tx "proj") 1 (listOf (struct (tx "proj"))) ++ none ::
                keyLines struct [tx "num_iter"])) ++ (numLines (tx "wdata") 1 (listOf (struct (tx "wdata"))) ++ (none :: groupLines struct epwKeys2)) := by
                simp [epwLines]
              have hX := n1.append (np.append n3.cons).cons
              rw [e, mid _ _ _ _ (n2.cons.ne k (h5 ▸ (by decide +kernel : tx "wdata" ∉ epwKeys2.flatten))), h5]
              refine lookup_numbered struct _ hkw _ ?_ fun v hv => ?_
              · rw [lookup_collect_ne _ _ _ (hX.ne (tx "wdata") (by decide +kernel))]
                rfl
              · obtain ⟨l, e, h0, ht⟩ := hlw v hv
                exact ⟨l, e, h0, fun i hi => (ht i hi).2⟩
            · rw [if_neg (by simp [h4, h5]), lookup_collect_ne]
              · rfl
              · refine (n1.append (np.append (n3.append (nw.append n2.cons)).cons).cons).ne k ?_
                simp only [List.mem_append, List.mem_singleton, not_or]
                exact ⟨h1, h4, h3, h5, h2⟩
  refine ⟨wrap (wrap d (tx "proj")) (tx "wdata"), ?_, fun k => ?_⟩
  · unfold readEpw
    rw [← ht, hd]
    rfl
  · have hmap : ∀ key, (∀ v, struct key = some v → ∃ l, v = .many l ∧ l ≠ [] ∧ ∀ i ∈ l, ItemOk rf i ∧ falsy i = false) →
        ((match struct key with
          | some (.many l) => some (single l)
          | _ => none : Option Val).map fun v => match v with
            | .one i => .many [i]
            | v => v) = struct key := by
      intro key hkey
      cases hv : struct key with
      | none => rfl
      | some v =>
        obtain ⟨l, rfl, _, _⟩ := hkey v hv
        simp only [Option.map_some, wrap_single]
    rw [lookup_wrap]
    by_cases h5 : k = tx "wdata"
    · rw [if_pos h5, lookup_wrap, if_neg (by decide +kernel), key, if_neg (by decide +kernel), if_pos (by decide +kernel), hmap _ hlw, h5, if_pos (by decide +kernel)]
    · rw [if_neg h5, lookup_wrap]
      by_cases h4 : k = tx "proj"
      · rw [if_pos h4, key, if_neg (by decide +kernel), if_pos (by decide +kernel), hmap _ hlp, h4, if_pos (by decide +kernel)]
      · rw [if_neg h4, key]
        by_cases hs : k ∈ epwSingle.map tx
        · rw [if_pos hs, if_pos (by rw [List.map_append, List.mem_append]; exact Or.inl hs)]
        · rw [if_neg hs, if_neg (by simp [h4, h5]), if_neg]
          rw [List.map_append, List.mem_append]
          exact fun e => e.elim hs (by simp [h4, h5])

end Verif.Namelist
