import Verif.Split.Props
import Mathlib.Algebra.BigOperators.Group.Finset.Basic
import Mathlib.Data.Finset.Sort
import Mathlib.Tactic.IntervalCases

/-!
# Sums over atomic projections: `proj_sum` in `elphmod/el.py`

Names of orbitals consist of ASCII characters as far as letters, digits and white space are concerned. The array of projections is
treated for one k point and band, the weights are elements of a ring.
-/

namespace Verif.Proj

open Verif.Text (Str isSpace)
open Verif.Split (split strip isDigit Alts)

/-! ### Model -/

/-- `[A-Z]` -/
def isUpper (c : Char) : Bool := 'A' ≤ c && c ≤ 'Z'

/-- `[a-z]` -/
def isLower (c : Char) : Bool := 'a' ≤ c && c ≤ 'z'

/-- `elphmod/el.py` 1262, `(?:([A-Z][a-z]?)(\d*))?`: two groups and the remaining text. Everything that follows in the regular
expression may be empty, so that greedy choices are final. -/
def element : Str → Option Str × Option Str × Str
  | [] => (none, none, [])
  | c :: r =>
    if isUpper c then
      match r with
      | [] => (some [c], some [], [])
      | d :: r' =>
        if isLower d then (some [c, d], some (r'.takeWhile isDigit), r'.dropWhile isDigit)
        else (some [c], some (r.takeWhile isDigit), r.dropWhile isDigit)
    else (none, none, c :: r)

/-- `elphmod/el.py` 1262, `-?`. -/
def skipDash : Str → Str
  | [] => []
  | c :: r => if c = '-' then r else c :: r

/-- `elphmod/el.py` 1262, `(?:([spdfx])(\S*))?`: two groups. -/
def label : Str → Option Str × Option Str
  | [] => (none, none)
  | c :: r => if c ∈ ['s', 'p', 'd', 'f', 'x'] then (some [c], some (r.takeWhile fun c => !isSpace c)) else (none, none)

/-- `elphmod/el.py` 1261-1263 (`info`). -/
def info (orbital : Str) : List (Option Str) :=
  let p := element (strip orbital)
  let s := skipDash p.2.2
  let q := label (s.dropWhile isDigit)
  [p.1, p.2.1, some (s.takeWhile isDigit), q.1, q.2]

/-- `elphmod/el.py` 1278: `all(A == B for A, B in zip(selection, orbital) if A)`. -/
def agree (selection orbital : List (Option Str)) : Bool :=
  (selection.zip orbital).all fun p => match p.1 with
    | none => true
    | some [] => true
    | some A => p.2 == some A

/-- `elphmod/el.py` 1274-1279: the set of indices for one group. -/
def indices (orbitals selections : List (List (Option Str))) : Finset Nat :=
  selections.foldl (fun set selection => orbitals.zipIdx.foldl (fun set p =>
    if agree selection p.1 then insert p.2 set else set) set) ∅

/-- `elphmod/el.py` 1273-1284: sum for one group. An index beyond the last projection is an error. -/
def groupSum {R : Type} [CommRing R] (fuel : Nat) (proj : List R) (orbitals : List (List (Option Str))) (group : Str) : Option R :=
  (split fuel group).bind fun selections =>
    (((indices orbitals (selections.map info)).sort (· ≤ ·)).mapM fun a => proj[a]?).map List.sum

/-- `elphmod/el.py` 1229-1291 (`proj_sum`). -/
def projSum {R : Type} [CommRing R] (fuel : Nat) (proj : List R) (orbitals groups : List Str) (other : Bool) : Option (List R) :=
  (groups.mapM (groupSum fuel proj (orbitals.map info))).map fun summed =>
    if other then summed ++ [1 - summed.sum] else summed

/-! ### Specification -/

/-- Orbital or selection of orbitals: element, number of the atom, principal quantum number, angular momentum and symmetry label. In
selections, components may be missing. -/
structure Orb where
  el : Option (Char × Option Char)
  num : Str
  n : Str
  l : Option (Char × Str)
  dash : Bool

/-- Symbol of the element. -/
def symbol : Option (Char × Option Char) → Str
  | none => []
  | some (c, none) => [c]
  | some (c, some d) => [c, d]

/-- Angular momentum and symmetry label. -/
def orbital : Option (Char × Str) → Str
  | none => []
  | some (c, m) => c :: m

/-- Name. -/
def Orb.name (o : Orb) : Str := symbol o.el ++ (o.num ++ ((if o.dash then ['-'] else []) ++ (o.n ++ orbital o.l)))

/-- Valid components. The dash is only optional if the components can be told apart without it. -/
structure Orb.Ok (o : Orb) : Prop where
  upper : ∀ e ∈ o.el, isUpper e.1
  lower : ∀ e ∈ o.el, ∀ d ∈ e.2, isLower d
  num : ∀ c ∈ o.num, isDigit c
  n : ∀ c ∈ o.n, isDigit c
  l : ∀ p ∈ o.l, p.1 ∈ ['s', 'p', 'd', 'f', 'x'] ∧ ∀ c ∈ p.2, ¬ isSpace c
  free : o.el = none → o.num = []
  dash : o.dash = true ∨ o.el = none ∨ (o.n = [] ∧ (o.l = none ∨ o.num ≠ [] ∨ ∃ c d, o.el = some (c, some d)))

/-- Given components agree, missing components do not matter. -/
def Orb.Selects (s o : Orb) : Prop :=
  (s.el = none ∨ s.el = o.el) ∧ (s.num = [] ∨ s.num = o.num) ∧ (s.n = [] ∨ s.n = o.n) ∧
    ∀ p ∈ s.l, ∃ p' ∈ o.l, p.1 = p'.1 ∧ (p.2 = [] ∨ p.2 = p'.2)

open Classical in
/-- Sum of the weights of the orbitals which are selected by at least one of the given selections. -/
noncomputable def weight {R : Type} [CommRing R] (proj : List R) (os sel : List Orb) : R :=
  ∑ a ∈ (Finset.range os.length).filter fun a => ∃ s ∈ sel, ∃ o, os[a]? = some o ∧ s.Selects o, proj.getD a 0

/-! ### Lemmas -/

theorem digit_not_space (c : Char) (h : isDigit c) : isSpace c = false := by
  by_contra hs
  simp only [Bool.not_eq_false, isSpace, Bool.or_eq_true, beq_iff_eq] at hs
  rcases hs with ((((rfl | rfl) | rfl) | rfl) | rfl) | rfl <;> exact absurd h (by decide)

theorem upper_not_space (c : Char) (h : isUpper c) : isSpace c = false := by
  by_contra hs
  simp only [Bool.not_eq_false, isSpace, Bool.or_eq_true, beq_iff_eq] at hs
  rcases hs with ((((rfl | rfl) | rfl) | rfl) | rfl) | rfl <;> exact absurd h (by decide)

theorem lower_not_space (c : Char) (h : isLower c) : isSpace c = false := by
  by_contra hs
  simp only [Bool.not_eq_false, isSpace, Bool.or_eq_true, beq_iff_eq] at hs
  rcases hs with ((((rfl | rfl) | rfl) | rfl) | rfl) | rfl <;> exact absurd h (by decide)

theorem rstrip_id (s : Str) (h : ∀ c ∈ s, isSpace c = false) : Verif.Split.rstrip s = s := by
  induction s with
  | nil => rfl
  | cons c r ih =>
    rw [Verif.Split.rstrip, ih fun c hc => h c (List.mem_cons_of_mem _ hc)]
    cases r with
    | nil => simp [h c (by simp)]
    | cons d r => rfl

theorem strip_id (s : Str) (h : ∀ c ∈ s, isSpace c = false) : strip s = s := by
  have e : s.dropWhile isSpace = s := by
    cases s with
    | nil => rfl
    | cons c r => simp [h c (by simp)]
  rw [strip, e, rstrip_id s h]

theorem digits_take (d r : Str) (hd : ∀ c ∈ d, isDigit c) (hr : ∀ c ∈ r.head?, isDigit c = false) :
    (d ++ r).takeWhile isDigit = d ∧ (d ++ r).dropWhile isDigit = r := by
  rw [List.takeWhile_append_of_pos hd, List.dropWhile_append_of_pos hd]
  cases r with
  | nil => simp
  | cons c r => simp [hr c (by simp)]

theorem label_orbital (l : Option (Char × Str)) (h : ∀ p ∈ l, p.1 ∈ ['s', 'p', 'd', 'f', 'x'] ∧ ∀ c ∈ p.2, ¬ isSpace c) :
    label (orbital l) = (l.map fun p => [p.1], l.map Prod.snd) := by
  cases l with
  | none => rfl
  | some p =>
    obtain ⟨c, m⟩ := p
    obtain ⟨hc, hm⟩ := h (c, m) rfl
    have e : m.takeWhile (fun c => !isSpace c) = m := by
      rw [List.takeWhile_eq_self_iff]
      intro c hc
      simpa using hm c hc
    simp only [orbital, label, hc, if_true, e, Option.map_some]

theorem head_orbital (l : Option (Char × Str)) (h : ∀ p ∈ l, p.1 ∈ ['s', 'p', 'd', 'f', 'x'] ∧ ∀ c ∈ p.2, ¬ isSpace c) (c : Char)
    (hc : c ∈ (orbital l).head?) : isDigit c = false ∧ c ≠ '-' ∧ isUpper c = false := by
  cases l with
  | none => simp [orbital] at hc
  | some p =>
    obtain ⟨d, m⟩ := p
    obtain ⟨hd, -⟩ := h (d, m) rfl
    simp only [orbital, List.head?_cons, Option.mem_def, Option.some.injEq] at hc
    subst hc
    simp only [List.mem_cons, List.not_mem_nil, or_false] at hd
    rcases hd with rfl | rfl | rfl | rfl | rfl <;> decide

theorem digit_not (c : Char) (h : isDigit c) : c ≠ '-' ∧ isUpper c = false ∧ isLower c = false := by
  have hd : ∀ c, isDigit c = true → c ∈ ['0', '1', '2', '3', '4', '5', '6', '7', '8', '9'] := by
    intro c h
    simp only [isDigit, Verif.Text.digitVal] at h
    split at h
    · rename_i hr
      have e : c = Char.ofNat c.toNat := (Char.ofNat_toNat c).symm
      obtain ⟨h1, h2⟩ := hr
      generalize c.toNat = k at *
      rw [e]
      interval_cases k <;> decide
    · simp at h
  have := hd c h
  simp only [List.mem_cons, List.not_mem_nil, or_false] at this
  rcases this with rfl | rfl | rfl | rfl | rfl | rfl | rfl | rfl | rfl | rfl <;> decide

/-- Parts of the name of an orbital. -/
def Orb.parts (o : Orb) : List (Option Str) :=
  [if o.el = none then none else some (symbol o.el), if o.el = none then none else some o.num, some o.n, o.l.map fun p => [p.1],
    o.l.map Prod.snd]

theorem head_append (d r : Str) (c : Char) (h : c ∈ (d ++ r).head?) : c ∈ d ∨ c ∈ r.head? := by
  cases d with
  | nil => exact Or.inr h
  | cons e d => exact Or.inl (by simp at h; simp [h])

theorem name_space (o : Orb) (h : o.Ok) : ∀ c ∈ o.name, isSpace c = false := by
  intro c hc
  simp only [Orb.name, List.mem_append] at hc
  rcases hc with hc | hc | hc | hc | hc
  · rcases he : o.el with _ | ⟨a, _ | d⟩
    · rw [he] at hc; simp [symbol] at hc
    · rw [he] at hc
      simp only [symbol, List.mem_cons, List.not_mem_nil, or_false] at hc
      subst hc
      exact upper_not_space _ (h.upper _ he)
    · rw [he] at hc
      simp only [symbol, List.mem_cons, List.not_mem_nil, or_false] at hc
      rcases hc with rfl | rfl
      · exact upper_not_space _ (h.upper _ he)
      · exact lower_not_space _ (h.lower _ he _ rfl)
  · exact digit_not_space c (h.num c hc)
  · split at hc
    · simp only [List.mem_cons, List.not_mem_nil, or_false] at hc
      subst hc
      decide
    · simp at hc
  · exact digit_not_space c (h.n c hc)
  · rcases hl : o.l with _ | ⟨a, m⟩
    · rw [hl] at hc; simp [orbital] at hc
    · rw [hl] at hc
      obtain ⟨h1, h2⟩ := h.l _ hl
      simp only [orbital, List.mem_cons] at hc
      rcases hc with rfl | hc
      · simp only [List.mem_cons, List.not_mem_nil, or_false] at h1
        rcases h1 with rfl | rfl | rfl | rfl | rfl <;> decide
      · simpa using h2 c hc

theorem element_name (o : Orb) (h : o.Ok) : element o.name =
    (if o.el = none then none else some (symbol o.el), if o.el = none then none else some o.num,
      (if o.dash then ['-'] else []) ++ (o.n ++ orbital o.l)) := by
  have hl := head_orbital o.l h.l
  have ht : o.el ≠ none → ∀ c ∈ ((if o.dash then ['-'] else []) ++ (o.n ++ orbital o.l)).head?, isDigit c = false := by
    intro he c hc
    rcases h.dash with hd | hd | ⟨hn, -⟩
    · rw [hd] at hc
      simp at hc
      subst hc
      decide
    · exact absurd hd he
    · rw [hn] at hc
      rcases head_append _ _ _ hc with hc | hc
      · split at hc
        · simp only [List.mem_cons, List.not_mem_nil, or_false] at hc
          subst hc
          decide
        · simp at hc
      · exact (hl c hc).1
  rcases he : o.el with _ | ⟨a, _ | d⟩
  · have hnum := h.free he
    have hu : ∀ c ∈ ((if o.dash then ['-'] else []) ++ (o.n ++ orbital o.l)).head?, isUpper c = false := by
      intro c hc
      rcases head_append _ _ _ hc with hc | hc
      · split at hc
        · simp only [List.mem_cons, List.not_mem_nil, or_false] at hc
          subst hc
          decide
        · simp at hc
      · rcases head_append _ _ _ hc with hc | hc
        · exact (digit_not c (h.n c hc)).2.1
        · exact (hl c hc).2.2
    simp only [Orb.name, he, hnum, symbol, List.nil_append, if_true]
    generalize (if o.dash then ['-'] else []) ++ (o.n ++ orbital o.l) = s at *
    cases s with
    | nil => rfl
    | cons c r => simp [element, hu c (by simp)]
  · have hup := h.upper _ he
    obtain ⟨e1, e2⟩ := digits_take o.num _ h.num (ht (by simp [he]))
    have hlow : ∀ c ∈ (o.num ++ ((if o.dash then ['-'] else []) ++ (o.n ++ orbital o.l))).head?, isLower c = false := by
      intro c hc
      rcases head_append _ _ _ hc with hc | hc
      · exact (digit_not c (h.num c hc)).2.2
      · rcases h.dash with hd | hd | ⟨hn, hd⟩
        · rw [hd] at hc
          simp at hc
          subst hc
          decide
        · rw [he] at hd; exact absurd hd (by simp)
        · by_cases hdash : o.dash
          · rw [hdash] at hc
            simp at hc
            subst hc
            decide
          · rcases hd with hd | hd | ⟨c', d', hd⟩
            · simp [hdash, hn, hd, orbital] at hc
            · rename_i hc'
              cases hnum : o.num with
              | nil => exact absurd hnum hd
              | cons x y =>
                rw [hnum] at hc'
                simp at hc'
                subst hc'
                exact (digit_not _ (h.num _ (by simp [hnum]))).2.2
            · rw [he] at hd; simp at hd
    simp only [Orb.name, he, symbol, reduceCtorEq, if_false]
    generalize hs : o.num ++ ((if o.dash then ['-'] else []) ++ (o.n ++ orbital o.l)) = s at *
    cases s with
    | nil =>
      simp only [List.append_eq_nil_iff] at hs
      simp [element, hup, hs]
    | cons c r =>
      simp [element, hup, hlow c (by simp), e1, e2]
  · have hup := h.upper _ he
    have hlo := h.lower _ he d rfl
    obtain ⟨e1, e2⟩ := digits_take o.num _ h.num (ht (by simp [he]))
    simp [Orb.name, he, symbol, element, hup, hlo, e1, e2]

theorem info_name (o : Orb) (h : o.Ok) : info o.name = o.parts := by
  have hl := head_orbital o.l h.l
  have hskip : skipDash ((if o.dash then ['-'] else []) ++ (o.n ++ orbital o.l)) = o.n ++ orbital o.l := by
    by_cases hd : o.dash
    · simp [hd, skipDash]
    · have hne : ∀ c ∈ (o.n ++ orbital o.l).head?, c ≠ '-' := by
        intro c hc
        rcases head_append _ _ _ hc with hc | hc
        · exact (digit_not c (h.n c hc)).1
        · exact (hl c hc).2.1
      simp only [hd, Bool.false_eq_true, if_false, List.nil_append]
      generalize o.n ++ orbital o.l = s at *
      cases s with
      | nil => rfl
      | cons c r => simp [skipDash, hne c (by simp)]
  obtain ⟨e1, e2⟩ := digits_take o.n _ h.n fun c hc => (hl c hc).1
  simp only [info, strip_id _ (name_space o h), element_name o h, hskip, e1, e2, label_orbital o.l h.l, Orb.parts]

theorem symbol_inj (e e' : Option (Char × Option Char)) (h : symbol e = symbol e') : e = e' := by
  rcases e with _ | ⟨a, _ | d⟩ <;> rcases e' with _ | ⟨a', _ | d'⟩ <;> simp [symbol] at h ⊢ <;> assumption

/-- **C126**: A selection agrees with an orbital if and only if all its components do. -/
theorem C126_select (s o : Orb) (hs : s.Ok) (ho : o.Ok) : agree (info s.name) (info o.name) = true ↔ s.Selects o := by
  rw [info_name s hs, info_name o ho]
  have key : ∀ (A : Str) (B : Option Str), (match (some A : Option Str) with
      | none => true
      | some [] => true
      | some A => B == some A) = true ↔ A = [] ∨ B = some A := by
    intro A B
    cases A with
    | nil => simp
    | cons c A => simp
  simp only [agree, Orb.parts, List.zip_cons_cons, List.zip_nil_right, List.all_cons, List.all_nil, Bool.and_true, Bool.and_eq_true,
    Orb.Selects]
  refine and_congr ?_ (and_congr ?_ (and_congr ?_ ?_))
  · by_cases he : s.el = none
    · simp [he]
    · simp only [he, if_false, false_or, key]
      have hne : symbol s.el ≠ [] := by
        intro h0
        exact he (symbol_inj _ none h0)
      simp only [hne, false_or]
      by_cases ho' : o.el = none
      · simp [ho', he]
      · simp only [ho', if_false, Option.some.injEq]
        exact ⟨fun h => (symbol_inj _ _ h).symm, fun h => by rw [h]⟩
  · by_cases he : s.el = none
    · simp [he, hs.free he]
    · simp only [he, if_false, key]
      by_cases ho' : o.el = none
      · simp [ho', ho.free ho']
      · simp only [ho', if_false, Option.some.injEq, eq_comm]
  · simp only [key, Option.some.injEq, eq_comm]
  · rcases hsl : s.l with _ | ⟨c, m⟩
    · simp
    · rcases hol : o.l with _ | ⟨c', m'⟩
      · simp
      · simp only [Option.map_some, key, Option.some.injEq, Option.mem_def, forall_eq', exists_eq_left', beq_iff_eq, List.cons.injEq,
          and_true]
        rw [eq_comm (a := c'), eq_comm (a := m')]

theorem mem_inner (orbitals : List (List (Option Str))) (selection : List (Option Str)) (k : Nat) (set : Finset Nat) (a : Nat) :
    a ∈ (orbitals.zipIdx k).foldl (fun set p => if agree selection p.1 then insert p.2 set else set) set ↔
      a ∈ set ∨ ∃ i o, orbitals[i]? = some o ∧ a = k + i ∧ agree selection o = true := by
  induction orbitals generalizing k set with
  | nil => simp
  | cons o orbitals ih =>
    rw [List.zipIdx_cons, List.foldl_cons, ih]
    have e : (∃ i o', (o :: orbitals)[i]? = some o' ∧ a = k + i ∧ agree selection o' = true) ↔
        (a = k ∧ agree selection o = true) ∨ ∃ i o', orbitals[i]? = some o' ∧ a = k + 1 + i ∧ agree selection o' = true := by
      constructor
      · rintro ⟨_ | i, o', h1, h2, h3⟩
        · simp at h1; subst h1; exact Or.inl ⟨h2, h3⟩
        · exact Or.inr ⟨i, o', by simpa using h1, by omega, h3⟩
      · rintro (⟨h1, h2⟩ | ⟨i, o', h1, h2, h3⟩)
        · exact ⟨0, o, rfl, h1, h2⟩
        · exact ⟨i + 1, o', by simpa using h1, by omega, h3⟩
    rw [e, ← or_assoc]
    by_cases h : agree selection o = true
    · simp only [h, if_true, Finset.mem_insert, and_true]
      tauto
    · simp [h]

theorem mem_indices (orbitals selections : List (List (Option Str))) (a : Nat) :
    a ∈ indices orbitals selections ↔ ∃ s ∈ selections, ∃ o, orbitals[a]? = some o ∧ agree s o = true := by
  have key : ∀ (sels : List (List (Option Str))) (set : Finset Nat),
      a ∈ sels.foldl (fun set selection => orbitals.zipIdx.foldl (fun set p =>
        if agree selection p.1 then insert p.2 set else set) set) set ↔
      a ∈ set ∨ ∃ s ∈ sels, ∃ o, orbitals[a]? = some o ∧ agree s o = true := by
    intro sels
    induction sels with
    | nil => simp
    | cons s sels ih =>
      intro set
      rw [List.foldl_cons, ih, mem_inner]
      simp only [Nat.zero_add, List.mem_cons, exists_eq_or_imp, or_assoc]
      refine or_congr_right (or_congr_left ?_)
      constructor
      · rintro ⟨i, o, h1, rfl, h2⟩; exact ⟨o, h1, h2⟩
      · rintro ⟨o, h1, h2⟩; exact ⟨a, o, h1, rfl, h2⟩
  rw [indices, key]
  simp

theorem mapM_get {R : Type} [CommRing R] (proj : List R) (is : List Nat) (h : ∀ i ∈ is, i < proj.length) :
    (is.mapM fun a => proj[a]?) = some (is.map fun a => proj.getD a 0) := by
  induction is with
  | nil => rfl
  | cons i is ih =>
    have hi := h i (by simp)
    rw [List.mapM_cons, ih fun j hj => h j (by simp [hj])]
    simp [hi]

open Classical in
theorem groupSum_eq {R : Type} [CommRing R] (proj : List R) (os : List Orb) (ho : ∀ o ∈ os, o.Ok) (hp : os.length ≤ proj.length)
    (a : Alts) (ha : a.Plain) (sel : List Orb) (hs : ∀ s ∈ sel, s.Ok) (he : a.expand = sel.map Orb.name) :
    ∃ f0, ∀ fuel, f0 ≤ fuel → groupSum fuel proj ((os.map Orb.name).map info) a.text = some (weight proj os sel) := by
  obtain ⟨f0, hf⟩ := Verif.Split.C11_partial a ha
  refine ⟨f0, fun fuel hfuel => ?_⟩
  have hi : ∀ i, i ∈ indices ((os.map Orb.name).map info) ((sel.map Orb.name).map info) ↔
      i < os.length ∧ ∃ s ∈ sel, ∃ o, os[i]? = some o ∧ s.Selects o := by
    intro i
    rw [mem_indices]
    simp only [List.map_map, List.mem_map, Function.comp, List.getElem?_map]
    constructor
    · rintro ⟨_, ⟨s, hs', rfl⟩, o', h1, h2⟩
      rw [Option.map_eq_some_iff] at h1
      obtain ⟨o, h1, rfl⟩ := h1
      exact ⟨(List.getElem?_eq_some_iff.1 h1).1, s, hs', o, h1, (C126_select s o (hs s hs') (ho o (List.mem_of_getElem? h1))).1 h2⟩
    · rintro ⟨-, s, hs', o, h1, h2⟩
      exact ⟨_, ⟨s, hs', rfl⟩, _, by rw [h1]; rfl, (C126_select s o (hs s hs') (ho o (List.mem_of_getElem? h1))).2 h2⟩
  have hw : weight proj os sel = ∑ a ∈ indices ((os.map Orb.name).map info) ((sel.map Orb.name).map info), proj.getD a 0 := by
    unfold weight
    apply Finset.sum_congr _ fun _ _ => rfl
    ext i
    simp only [Finset.mem_filter, Finset.mem_range, hi]
  rw [groupSum, hf fuel hfuel, Option.bind_some, he, mapM_get _ _ fun i h => ?_, Option.map_some, hw]
  · rw [Finset.sum, ← Finset.sort_eq _ (· ≤ ·), Multiset.map_coe, Multiset.sum_coe]
  · rw [Finset.mem_sort, hi] at h
    omega

/-- **C126**: For each group, given as an expression with commas and braces which expands to selections of orbitals, the weights of
exactly the selected orbitals are added up, none of them twice. The optional last value is the difference to one. -/
theorem C126_sum {R : Type} [CommRing R] (proj : List R) (os : List Orb) (ho : ∀ o ∈ os, o.Ok) (hp : os.length ≤ proj.length)
    (groups : List (Alts × List Orb)) (hg : ∀ g ∈ groups, g.1.Plain ∧ (∀ s ∈ g.2, s.Ok) ∧ g.1.expand = g.2.map Orb.name)
    (other : Bool) :
    ∃ f0, ∀ fuel, f0 ≤ fuel → projSum fuel proj (os.map Orb.name) (groups.map fun g => g.1.text) other =
      some ((groups.map fun g => weight proj os g.2) ++
        if other then [1 - (groups.map fun g => weight proj os g.2).sum] else []) := by
  have key : ∃ f0, ∀ fuel, f0 ≤ fuel → (groups.map fun g => g.1.text).mapM (groupSum fuel proj ((os.map Orb.name).map info)) =
      some (groups.map fun g => weight proj os g.2) := by
    induction groups with
    | nil => exact ⟨0, fun _ _ => rfl⟩
    | cons g groups ih =>
      obtain ⟨f1, h1⟩ := ih fun g hg' => hg g (by simp [hg'])
      obtain ⟨ha, hs, he⟩ := hg g (by simp)
      obtain ⟨f2, h2⟩ := groupSum_eq proj os ho hp g.1 ha g.2 hs he
      refine ⟨max f1 f2, fun fuel hf => ?_⟩
      rw [List.map_cons, List.mapM_cons, h2 fuel (by omega), h1 fuel (by omega)]
      rfl
  obtain ⟨f0, hf⟩ := key
  refine ⟨f0, fun fuel h => ?_⟩
  rw [projSum, hf fuel h, Option.map_some]
  cases other <;> simp

open Classical in
/-- **C126**: If no orbital is selected by two groups, the last value is what is left if the weights of all selected orbitals are
subtracted from one. -/
theorem C126_other {R : Type} [CommRing R] (proj : List R) (os : List Orb) (sels : List (List Orb))
    (hd : sels.Pairwise fun g h => ∀ o ∈ os, ¬ ((∃ s ∈ g, s.Selects o) ∧ ∃ s ∈ h, s.Selects o)) :
    1 - (sels.map (weight proj os)).sum = 1 - ∑ a ∈ (Finset.range os.length).filter fun a =>
      ∃ g ∈ sels, ∃ s ∈ g, ∃ o, os[a]? = some o ∧ s.Selects o, proj.getD a 0 := by
  congr 1
  induction sels with
  | nil => simp
  | cons g sels ih =>
    rw [List.pairwise_cons] at hd
    rw [List.map_cons, List.sum_cons, ih hd.2, weight, ← Finset.sum_union]
    · apply Finset.sum_congr _ fun _ _ => rfl
      ext a
      simp only [Finset.mem_union, Finset.mem_filter, List.mem_cons, exists_eq_or_imp]
      exact and_or_left.symm
    · rw [Finset.disjoint_left]
      intro a h1 h2
      simp only [Finset.mem_filter] at h1 h2
      obtain ⟨-, s, hs, o, h, hso⟩ := h1
      obtain ⟨-, g', hg', s', hs', o', h', hso'⟩ := h2
      rw [h] at h'
      cases h'
      exact hd.1 g' hg' o (List.mem_of_getElem? h) ⟨⟨s, hs, hso⟩, s', hs', hso'⟩

/-! ### Example -/

/-- Orbitals of a sulfur atom and of the first of two tantalum atoms. -/
def sampleOrbitals : List Orb :=
  [⟨some ('S', none), [], ['3'], some ('p', ['z']), true⟩, ⟨some ('T', some 'a'), ['1'], ['5'], some ('d', ['z', '2']), true⟩,
    ⟨some ('T', some 'a'), ['1'], ['5'], some ('d', ['x', 'y']), true⟩]

/-- `'S-p'` and `'Ta-d{z2, x2-y2}'` -/
def sampleGroups : List (Alts × List Orb) :=
  [(.one (.chr 'S' (.chr '-' (.chr 'p' .nil))), [⟨some ('S', none), [], [], some ('p', []), true⟩]),
    (.one (.chr 'T' (.chr 'a' (.chr '-' (.chr 'd' (.grp (.cons (.chr 'z' (.chr '2' .nil))
      (.one (.chr ' ' (.chr 'x' (.chr '2' (.chr '-' (.chr 'y' (.chr '2' .nil)))))))) .nil))))),
      [⟨some ('T', some 'a'), [], [], some ('d', ['z', '2']), true⟩,
        ⟨some ('T', some 'a'), [], [], some ('d', ['x', '2', '-', 'y', '2']), true⟩])]

example : sampleGroups.map (fun g => String.ofList g.1.text) = ["S-p", "Ta-d{z2, x2-y2}"] ∧
    sampleOrbitals.map (fun o => String.ofList o.name) = ["S-3pz", "Ta1-5dz2", "Ta1-5dxy"] := by decide +kernel

theorem sample_ok : ∀ o ∈ sampleOrbitals, o.Ok := by
  intro o ho
  simp only [sampleOrbitals, List.mem_cons, List.not_mem_nil, or_false] at ho
  rcases ho with rfl | rfl | rfl <;>
    exact ⟨by simp; decide, by simp <;> decide, by simp <;> decide, by simp; decide, by simp; decide, by simp, by simp⟩

theorem sample_groups : ∀ g ∈ sampleGroups, g.1.Plain ∧ (∀ s ∈ g.2, s.Ok) ∧ g.1.expand = g.2.map Orb.name := by
  intro g hg
  simp only [sampleGroups, List.mem_cons, List.not_mem_nil, or_false] at hg
  rcases hg with rfl | rfl
  · refine ⟨by simp [Alts.Plain, Verif.Split.Item.Plain], ?_, ?_⟩
    · intro s hs
      simp only [List.mem_cons, List.not_mem_nil, or_false] at hs
      subst hs
      exact ⟨by simp; decide, by simp, by simp, by simp, by simp, by simp, by simp⟩
    · simp [Alts.expand, Verif.Split.Item.expand, Verif.Split.Item.trim, Verif.Split.Item.trimLeft, Verif.Split.Item.trimRight, isSpace,
        Orb.name, symbol, orbital]
  · refine ⟨by simp [Alts.Plain, Verif.Split.Item.Plain], ?_, ?_⟩
    · intro s hs
      simp only [List.mem_cons, List.not_mem_nil, or_false] at hs
      rcases hs with rfl | rfl <;> exact ⟨by simp; decide, by simp; decide, by simp, by simp, by simp; decide, by simp, by simp⟩
    · simp [Alts.expand, Verif.Split.Item.expand, Verif.Split.Item.trim, Verif.Split.Item.trimLeft, Verif.Split.Item.trimRight, isSpace,
        Orb.name, symbol, orbital]

example : ∃ f0, ∀ fuel, f0 ≤ fuel → projSum fuel [(1 / 2 : ℚ), 1 / 4, 1 / 8] (sampleOrbitals.map Orb.name)
    (sampleGroups.map fun g => g.1.text) true = some ((sampleGroups.map fun g => weight [(1 / 2 : ℚ), 1 / 4, 1 / 8] sampleOrbitals g.2) ++
      [1 - (sampleGroups.map fun g => weight [(1 / 2 : ℚ), 1 / 4, 1 / 8] sampleOrbitals g.2).sum]) :=
  C126_sum [(1 / 2 : ℚ), 1 / 4, 1 / 8] sampleOrbitals sample_ok (by simp [sampleOrbitals]) sampleGroups sample_groups true

example : projSum 9 [(1 / 2 : ℚ), 1 / 4, 1 / 8] (sampleOrbitals.map Orb.name) (sampleGroups.map fun g => g.1.text) true =
    some [1 / 2, 1 / 4, 1 / 4] := by decide +kernel

example : (sampleGroups.map Prod.snd).Pairwise fun g h => ∀ o ∈ sampleOrbitals, ¬ ((∃ s ∈ g, s.Selects o) ∧ ∃ s ∈ h, s.Selects o) := by
  simp [sampleGroups, sampleOrbitals, Orb.Selects]

end Verif.Proj
