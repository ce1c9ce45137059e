import Verif.Text.Lemmas
import Verif.Fourier.Props

/-!
# Interactions from files: `read_local_Coulomb_tensor`, `read_orbital_Coulomb_interaction` and `Model.__init__` of `elphmod/elel.py`

A file is the list of its lines. Numbers in files are rational and not rounded. Elements of arrays which have not been set are `none` or arbitrary. The
file *dat.Wmat* is represented by the arrays obtained from it (see C16).
-/

namespace Verif.ElEl.Init

open Verif.Text Verif.Fourier
open Verif.Voronoi (V3 IsMesh)

/-- Assignment to the elements of an array for each line; lines where `f` fails (`ValueError` or `IndexError`) are skipped. -/
def table {K V : Type} [DecidableEq K] (f : Str → Option (K × V)) (ls : List Str) : K → Option V :=
  ls.foldl (fun t l => match f l with
    | some e => fun k => if k = e.1 then some e.2 else t k
    | none => t) fun _ => none

/-- `[int(n) - 1 for n in columns]`, which must have four elements. -/
def orbitals (columns : List Str) : Option (Int × Int × Int × Int) :=
  match columns.mapM readInt with
  | some [i, j, k, l] => some (i - 1, j - 1, k - 1, l - 1)
  | _ => none

/-- `elphmod/elel.py` 296-304: body of the loop for the full tensor. -/
def localLine (no : Nat) (line : Str) : Option ((Nat × Nat × Nat × Nat) × (ℚ × ℚ)) := do
  let (i, j, k, l) ← orbitals ((words line).take 4)
  match ((words line).drop 4).mapM readFloat with
  | some [re, im] => some ((← pyIndex no i, ← pyIndex no j, ← pyIndex no k, ← pyIndex no l), (re, im))
  | _ => none

/-- `elphmod/elel.py` 296-304: body of the loop for `dd=True`. -/
def localLineDD (no : Nat) (line : Str) : Option ((Nat × Nat) × (ℚ × ℚ)) := do
  let (i, j, k, l) ← orbitals ((words line).take 4)
  match ((words line).drop 4).mapM readFloat with
  | some [re, im] => if i = j ∧ k = l then some ((← pyIndex no i, ← pyIndex no k), (re, im)) else none
  | _ => none

/-- `elphmod/elel.py` 284-310 (`read_local_Coulomb_tensor`). -/
def readLocal (no : Nat) (ls : List Str) : Nat × Nat × Nat × Nat → Option (ℚ × ℚ) := table (localLine no) ls

/-- `elphmod/elel.py` 284-310 (`read_local_Coulomb_tensor` with `dd=True`). -/
def readLocalDD (no : Nat) (ls : List Str) : Nat × Nat → Option (ℚ × ℚ) := table (localLineDD no) ls

/-- `elphmod/elel.py` 326: `int(round(float(columns[c]) * nq[c])) % nq[c]`. -/
def qIndex (n : Nat) (columns : List Str) (c : Nat) : Option Int := do
  let w ← columns[c]?
  let x ← readFloat w
  some (roundEven (x * n) % n)

/-- `elphmod/elel.py` 324-330. -/
def orbitalHead (n1 n2 n3 : Nat) (line : Str) : Option (V3 × Int × Int × Int × Int) := do
  let q1 ← qIndex n1 (words line) 0
  let q2 ← qIndex n2 (words line) 1
  let q3 ← qIndex n3 (words line) 2
  let o ← orbitals (((words line).drop 3).take 4)
  some ((q1, q2, q3), o)

/-- `float(columns[7]) + 1j * float(columns[8])` -/
def orbitalValue (line : Str) : Option (ℚ × ℚ) := do
  let re ← (words line)[7]?
  let im ← (words line)[8]?
  some (← readFloat re, ← readFloat im)

/-- `elphmod/elel.py` 323-334: body of the loop for the full tensor. -/
def orbitalLine (n1 n2 n3 no : Nat) (line : Str) : Option ((V3 × Nat × Nat × Nat × Nat) × (ℚ × ℚ)) := do
  let (q, i, j, k, l) ← orbitalHead n1 n2 n3 line
  let v ← orbitalValue line
  some ((q, ← pyIndex no j, ← pyIndex no i, ← pyIndex no l, ← pyIndex no k), v)

/-- `elphmod/elel.py` 323-337: body of the loop for `dd=True`. -/
def orbitalLineDD (n1 n2 n3 no : Nat) (line : Str) : Option ((V3 × Nat × Nat) × (ℚ × ℚ)) := do
  let (q, i, j, k, l) ← orbitalHead n1 n2 n3 line
  if i = j ∧ k = l then
    let v ← orbitalValue line
    some ((q, ← pyIndex no i, ← pyIndex no k), v)
  else none

/-- `elphmod/elel.py` 312-343 (`read_orbital_Coulomb_interaction`). -/
def readOrbital (n1 n2 n3 no : Nat) (ls : List Str) : V3 × Nat × Nat × Nat × Nat → Option (ℚ × ℚ) := table (orbitalLine n1 n2 n3 no) ls

/-- `elphmod/elel.py` 312-343 (`read_orbital_Coulomb_interaction` with `dd=True`). -/
def readOrbitalDD (n1 n2 n3 no : Nat) (ls : List Str) : V3 × Nat × Nat → Option (ℚ × ℚ) := table (orbitalLineDD n1 n2 n3 no) ls

/-- Complex number from the text. -/
noncomputable def toC (x : ℚ × ℚ) : ℂ := (x.1 : ℂ) + Complex.I * (x.2 : ℂ)

/-- Array from a file; `garbage` are elements not set. -/
noncomputable def array {no : Nat} (n1 n2 n3 : Nat) (garbage : V3 → Fin no → Fin no → ℂ) (ls : List Str) (m : V3) (a b : Fin no) : ℂ :=
  match readOrbitalDD n1 n2 n3 no ls (m, a, b) with
  | some x => toC x
  | none => garbage m a b

/-- `elphmod/elel.py` 97-148 (`Model.__init__` with `uijkl`): the two other files are used if both are given. -/
noncomputable def initOrbital {no : Nat} (size n1 n2 n3 : Nat) (at' : Fin 3 → Fin 3 → ℝ) (r : Fin no → Fin 3 → ℝ)
    (garbage garbageFull garbageRedu : V3 → Fin no → Fin no → ℂ) (uijkl : List Str) (full redu : Option (List Str)) :
    Option (List (V3 × (Fin no → Fin no → ℂ))) :=
  elelQ2r size n1 n2 n3 at' r true fun m a b => match full, redu with
    | some f, some d => array n1 n2 n3 garbage uijkl m a b + array n1 n2 n3 garbageFull f m a b - array n1 n2 n3 garbageRedu d m a b
    | _, _ => array n1 n2 n3 garbage uijkl m a b

/-- `elphmod/elel.py` 141-144: the array `WR` on a periodic mesh. -/
noncomputable def fold {no : Nat} (n1 n2 n3 : Nat) (l : List (V3 × (Fin no → Fin no → ℂ))) : V3 → Fin no → Fin no → ℂ :=
  l.foldl (fun t e m => if m = (e.1.1 % (n1 : Int), e.1.2.1 % (n2 : Int), e.1.2.2 % (n3 : Int)) then e.2 else t m) fun _ _ _ => 0

/-- `elphmod/elel.py` 97-148 (`Model.__init__` with `Wmat`) for lattice vectors and matrices `l`. -/
noncomputable def initWmat {no : Nat} (size : Nat) (nq : Option (Nat × Nat × Nat)) (at' : Fin 3 → Fin 3 → ℝ) (r : Fin no → Fin 3 → ℝ)
    (l : List (V3 × (Fin no → Fin no → ℂ))) : Option (List (V3 × (Fin no → Fin no → ℂ))) :=
  match nq with
  | none => some l
  | some (n1, n2, n3) => elelQ2r size n1 n2 n3 at' r false (fold n1 n2 n3 l)

/-- `elphmod/elel.py` 105-110: mesh from a sequence or a number. -/
def meshOf : List Nat ⊕ Nat → Option (Nat × Nat × Nat)
  | .inl [] => some (1, 1, 1)
  | .inl [a] => some (a, 1, 1)
  | .inl [a, b] => some (a, b, 1)
  | .inl [a, b, c] => some (a, b, c)
  | .inl _ => none
  | .inr a => if a = 0 then none else some (a, a, 1)

/-! ### Files in general -/

theorem table_some {K V : Type} [DecidableEq K] (f : Str → Option (K × V)) (ls : List Str) (k : K) :
    (table f ls k = none ∧ ∀ l ∈ ls, ∀ v, f l ≠ some (k, v)) ∨ ∃ l ∈ ls, ∃ v, f l = some (k, v) ∧ table f ls k = some v := by
  unfold table
  have key : ∀ (t : K → Option V), (ls.foldl (fun t l => match f l with
      | some e => fun k => if k = e.1 then some e.2 else t k
      | none => t) t k = t k ∧ ∀ l ∈ ls, ∀ v, f l ≠ some (k, v)) ∨ ∃ l ∈ ls, ∃ v, f l = some (k, v) ∧
      ls.foldl (fun t l => match f l with
        | some e => fun k => if k = e.1 then some e.2 else t k
        | none => t) t k = some v := by
    induction ls with
    | nil => exact fun t => Or.inl ⟨rfl, by simp⟩
    | cons l ls ih =>
      intro t
      rw [List.foldl_cons]
      rcases ih (match f l with
        | some e => fun k => if k = e.1 then some e.2 else t k
        | none => t) with ⟨h1, h2⟩ | ⟨l', hl', v, h1, h2⟩
      · cases hf : f l with
        | none =>
          rw [hf] at h1
          refine Or.inl ⟨h1, ?_⟩
          intro l' hl' v
          rcases List.mem_cons.1 hl' with rfl | hl'
          · rw [hf]
            simp
          · exact h2 l' hl' v
        | some e =>
          rw [hf] at h1
          obtain ⟨k', v⟩ := e
          by_cases hk : k = k'
          · subst hk
            refine Or.inr ⟨l, List.mem_cons_self, v, hf, ?_⟩
            rw [h1]
            exact if_pos rfl
          · refine Or.inl ⟨?_, ?_⟩
            · rw [h1]
              exact if_neg hk
            · intro l' hl' v'
              rcases List.mem_cons.1 hl' with rfl | hl'
              · rw [hf]
                intro h
                injection h with h
                injection h with h
                exact hk h.symm
              · exact h2 l' hl' v'
      · exact Or.inr ⟨l', List.mem_cons_of_mem _ hl', v, h1, h2⟩
  exact key _

/-- A line of a file with an interaction: nine columns or more. The coordinates are those of the point `m` of the mesh, up to rounding errors and
reciprocal lattice vectors; orbitals are counted from one (specification). -/
structure Entry (n1 n2 n3 : Nat) (line : Str) (m : V3) (i j k l : Int) (v : ℚ × ℚ) : Prop where
  columns : ∃ (a b c i' j' k' l' re im : Str) (rest : List Str), words line = a :: b :: c :: i' :: j' :: k' :: l' :: re :: im :: rest ∧
    (∃ (x : ℚ) (z : Int), readFloat a = some x ∧ |x * n1 - (m.1 + n1 * z)| < 1 / 2) ∧
    (∃ (x : ℚ) (z : Int), readFloat b = some x ∧ |x * n2 - (m.2.1 + n2 * z)| < 1 / 2) ∧
    (∃ (x : ℚ) (z : Int), readFloat c = some x ∧ |x * n3 - (m.2.2 + n3 * z)| < 1 / 2) ∧
    readInt i' = some i ∧ readInt j' = some j ∧ readInt k' = some k ∧ readInt l' = some l ∧ readFloat re = some v.1 ∧ readFloat im = some v.2

theorem roundEven_of_near (x : ℚ) (m : Int) (h : |x - m| < 1 / 2) : roundEven x = m := by
  have h1 := roundEven_near x
  rw [abs_le] at h1
  rw [abs_lt] at h
  have a : (roundEven x : ℚ) < m + 1 := by linarith [h1.1, h1.2, h.1, h.2]
  have b : (m : ℚ) < roundEven x + 1 := by linarith [h1.1, h1.2, h.1, h.2]
  have a : roundEven x < m + 1 := by exact_mod_cast a
  have b : m < roundEven x + 1 := by exact_mod_cast b
  omega

theorem qIndex_eq (n : Nat) (columns : List Str) (c : Nat) (w : Str) (hw : columns[c]? = some w) (m : Int) (h0 : 0 ≤ m) (h1 : m < n)
    (h : ∃ (x : ℚ) (z : Int), readFloat w = some x ∧ |x * n - (m + n * z)| < 1 / 2) : qIndex n columns c = some m := by
  obtain ⟨x, z, hx, h⟩ := h
  unfold qIndex
  rw [hw]
  simp only [Option.bind_eq_bind, Option.bind_some]
  rw [hx]
  simp only [Option.bind_some]
  rw [roundEven_of_near (x * n) (m + n * z) (by push_cast; exact h), Int.add_mul_emod_self_left, Int.emod_eq_of_lt h0 h1]

theorem orbitals_eq (a b c d : Str) (i j k l : Int) (h1 : readInt a = some i) (h2 : readInt b = some j) (h3 : readInt c = some k)
    (h4 : readInt d = some l) : orbitals [a, b, c, d] = some (i - 1, j - 1, k - 1, l - 1) := by
  unfold orbitals
  simp [List.mapM_cons, h1, h2, h3, h4]

theorem head_eq (n1 n2 n3 : Nat) (line : Str) (m : V3) (hm : IsMesh n1 n2 n3 m) (i j k l : Int) (v : ℚ × ℚ)
    (h : Entry n1 n2 n3 line m i j k l v) : orbitalHead n1 n2 n3 line = some (m, i - 1, j - 1, k - 1, l - 1) ∧ orbitalValue line = some v := by
  obtain ⟨a, b, c, i', j', k', l', re, im, rest, hw, ha, hb, hc, hi, hj, hk, hl, hre, him⟩ := h.columns
  obtain ⟨⟨a1, b1⟩, ⟨a2, b2⟩, a3, b3⟩ := hm
  constructor
  · unfold orbitalHead
    rw [qIndex_eq n1 (words line) 0 a (by rw [hw]; rfl) m.1 a1 b1 ha, qIndex_eq n2 (words line) 1 b (by rw [hw]; rfl) m.2.1 a2 b2 hb,
      qIndex_eq n3 (words line) 2 c (by rw [hw]; rfl) m.2.2 a3 b3 hc, hw]
    simp only [List.drop_succ_cons, List.drop_zero, List.take_succ_cons, List.take_zero]
    rw [orbitals_eq i' j' k' l' i j k l hi hj hk hl]
    rfl
  · unfold orbitalValue
    rw [hw]
    simp [hre, him]

theorem pyIndex_of (no : Nat) (i : Int) (h1 : 1 ≤ i) (h2 : i ≤ no) : pyIndex no (i - 1) = some (i - 1).toNat := by
  unfold pyIndex
  rw [if_pos ⟨by omega, by omega⟩]

theorem value_none (line : Str) (h : (words line).length < 9) : orbitalValue line = none := by
  unfold orbitalValue
  rw [List.getElem?_eq_none (by omega : (words line).length ≤ 8)]
  cases (words line)[7]? <;> rfl

/-- All lines are either too short or entries of the tensor `W`, the indices of which are counted from zero (specification). -/
def Lines (n1 n2 n3 no : Nat) (ls : List Str) (W : V3 → Nat → Nat → Nat → Nat → ℚ × ℚ) : Prop :=
  ∀ line ∈ ls, (words line).length < 9 ∨ ∃ m i j k l, IsMesh n1 n2 n3 m ∧ i < no ∧ j < no ∧ k < no ∧ l < no ∧
    Entry n1 n2 n3 line m (i + 1 : Nat) (j + 1 : Nat) (k + 1 : Nat) (l + 1 : Nat) (W m i j k l)

theorem pyIndex_nat (no i : Nat) (h : i < no) : pyIndex no (((i + 1 : Nat) : Int) - 1) = some i := by
  rw [pyIndex_of no _ (by omega) (by omega)]
  congr 1
  omega

theorem orbitalLine_entry (n1 n2 n3 no : Nat) (line : Str) (m : V3) (hm : IsMesh n1 n2 n3 m) (i j k l : Nat) (hi : i < no) (hj : j < no)
    (hk : k < no) (hl : l < no) (v : ℚ × ℚ) (h : Entry n1 n2 n3 line m (i + 1 : Nat) (j + 1 : Nat) (k + 1 : Nat) (l + 1 : Nat) v) :
    orbitalLine n1 n2 n3 no line = some ((m, j, i, l, k), v) := by
  obtain ⟨h1, h2⟩ := head_eq n1 n2 n3 line m hm _ _ _ _ v h
  unfold orbitalLine
  rw [h1, h2]
  simp only [Option.bind_eq_bind, Option.bind_some]
  rw [pyIndex_nat no i hi, pyIndex_nat no j hj, pyIndex_nat no k hk, pyIndex_nat no l hl]
  rfl

theorem orbitalLineDD_entry (n1 n2 n3 no : Nat) (line : Str) (m : V3) (hm : IsMesh n1 n2 n3 m) (i j k l : Nat) (hi : i < no)
    (hk : k < no) (v : ℚ × ℚ) (h : Entry n1 n2 n3 line m (i + 1 : Nat) (j + 1 : Nat) (k + 1 : Nat) (l + 1 : Nat) v) :
    orbitalLineDD n1 n2 n3 no line = if i = j ∧ k = l then some ((m, i, k), v) else none := by
  obtain ⟨h1, h2⟩ := head_eq n1 n2 n3 line m hm _ _ _ _ v h
  unfold orbitalLineDD
  rw [h1]
  simp only [Option.bind_eq_bind, Option.bind_some]
  by_cases hd : i = j ∧ k = l
  · rw [if_pos hd, if_pos (by omega), h2]
    simp only [Option.bind_some]
    rw [pyIndex_nat no i hi, pyIndex_nat no k hk]
    rfl
  · rw [if_neg hd, if_neg (by omega)]

theorem orbitalLine_short (n1 n2 n3 no : Nat) (line : Str) (h : (words line).length < 9) : orbitalLine n1 n2 n3 no line = none := by
  unfold orbitalLine
  rw [value_none line h]
  cases orbitalHead n1 n2 n3 line <;> rfl

theorem orbitalLineDD_short (n1 n2 n3 no : Nat) (line : Str) (h : (words line).length < 9) : orbitalLineDD n1 n2 n3 no line = none := by
  unfold orbitalLineDD
  rw [value_none line h]
  cases orbitalHead n1 n2 n3 line with
  | none => rfl
  | some e =>
    simp only [Option.bind_eq_bind, Option.bind_some, Option.bind_none, ite_self]

/-- C144: the elements of the tensor in the file are found with the indices of each pair of orbitals swapped, whatever the order of lines, headers and
the choice of equivalent q points. -/
theorem C144_orbital (n1 n2 n3 no : Nat) (ls : List Str) (W : V3 → Nat → Nat → Nat → Nat → ℚ × ℚ) (h : Lines n1 n2 n3 no ls W) (m : V3)
    (hm : IsMesh n1 n2 n3 m) (i j k l : Nat) (hi : i < no) (hj : j < no) (hk : k < no) (hl : l < no)
    (hc : ∃ line ∈ ls, Entry n1 n2 n3 line m (i + 1 : Nat) (j + 1 : Nat) (k + 1 : Nat) (l + 1 : Nat) (W m i j k l)) :
    readOrbital n1 n2 n3 no ls (m, j, i, l, k) = some (W m i j k l) := by
  obtain ⟨line, hline, he⟩ := hc
  rcases table_some (orbitalLine n1 n2 n3 no) ls (m, j, i, l, k) with ⟨-, h2⟩ | ⟨line', hl', v, h1, h2⟩
  · exact absurd (orbitalLine_entry n1 n2 n3 no line m hm i j k l hi hj hk hl _ he) (h2 line hline _)
  · unfold readOrbital
    rw [h2]
    rcases h line' hl' with hs | ⟨m', i', j', k', l', hm', hi', hj', hk', hl'', he'⟩
    · rw [orbitalLine_short n1 n2 n3 no line' hs] at h1
      cases h1
    · rw [orbitalLine_entry n1 n2 n3 no line' m' hm' i' j' k' l' hi' hj' hk' hl'' _ he'] at h1
      simp only [Option.some.injEq, Prod.mk.injEq] at h1
      obtain ⟨⟨rfl, rfl, rfl, rfl, rfl⟩, h1⟩ := h1
      rw [h1]

/-- C144: the density-density part consists of the elements for pairs of equal orbitals; only these have to be in the file. -/
theorem C144_density (n1 n2 n3 no : Nat) (ls : List Str) (W : V3 → Nat → Nat → Nat → Nat → ℚ × ℚ) (h : Lines n1 n2 n3 no ls W) (m : V3)
    (hm : IsMesh n1 n2 n3 m) (i k : Nat) (hi : i < no) (hk : k < no)
    (hc : ∃ line ∈ ls, Entry n1 n2 n3 line m (i + 1 : Nat) (i + 1 : Nat) (k + 1 : Nat) (k + 1 : Nat) (W m i i k k)) :
    readOrbitalDD n1 n2 n3 no ls (m, i, k) = some (W m i i k k) := by
  obtain ⟨line, hline, he⟩ := hc
  rcases table_some (orbitalLineDD n1 n2 n3 no) ls (m, i, k) with ⟨-, h2⟩ | ⟨line', hl', v, h1, h2⟩
  · refine absurd ?_ (h2 line hline (W m i i k k))
    rw [orbitalLineDD_entry n1 n2 n3 no line m hm i i k k hi hk _ he, if_pos ⟨rfl, rfl⟩]
  · unfold readOrbitalDD
    rw [h2]
    rcases h line' hl' with hs | ⟨m', i', j', k', l', hm', hi', hj', hk', hl'', he'⟩
    · rw [orbitalLineDD_short n1 n2 n3 no line' hs] at h1
      cases h1
    · rw [orbitalLineDD_entry n1 n2 n3 no line' m' hm' i' j' k' l' hi' hk' _ he'] at h1
      by_cases hd : i' = j' ∧ k' = l'
      · rw [if_pos hd] at h1
        obtain ⟨rfl, rfl⟩ := hd
        simp only [Option.some.injEq, Prod.mk.injEq] at h1
        obtain ⟨⟨rfl, rfl, rfl⟩, h1⟩ := h1
        rw [h1]
      · rw [if_neg hd] at h1
        cases h1

/-- C144: an element without entry in the file is undefined; there is no error. -/
theorem C144_unset (n1 n2 n3 no : Nat) (ls : List Str) (W : V3 → Nat → Nat → Nat → Nat → ℚ × ℚ) (h : Lines n1 n2 n3 no ls W) (m : V3)
    (i j k l : Nat) (hc : ∀ line ∈ ls, ∀ v, ¬ Entry n1 n2 n3 line m (i + 1 : Nat) (j + 1 : Nat) (k + 1 : Nat) (l + 1 : Nat) v) :
    readOrbital n1 n2 n3 no ls (m, j, i, l, k) = none := by
  rcases table_some (orbitalLine n1 n2 n3 no) ls (m, j, i, l, k) with ⟨h1, -⟩ | ⟨line', hl', v, h1, h2⟩
  · exact h1
  · rcases h line' hl' with hs | ⟨m', i', j', k', l', hm', hi', hj', hk', hl'', he'⟩
    · rw [orbitalLine_short n1 n2 n3 no line' hs] at h1
      cases h1
    · rw [orbitalLine_entry n1 n2 n3 no line' m' hm' i' j' k' l' hi' hj' hk' hl'' _ he'] at h1
      simp only [Option.some.injEq, Prod.mk.injEq] at h1
      obtain ⟨⟨rfl, rfl, rfl, rfl, rfl⟩, h1⟩ := h1
      exact absurd he' (hc line' hl' _)

/-- C144 fails for orbitals counted from zero: the orbital zero is taken for the last one without an error. -/
theorem C144_zero_violated (n1 n2 n3 no : Nat) (hno : 0 < no) (line : Str) (m : V3) (hm : IsMesh n1 n2 n3 m) (v : ℚ × ℚ)
    (h : Entry n1 n2 n3 line m 0 0 0 0 v) : readOrbitalDD n1 n2 n3 no [line] (m, no - 1, no - 1) = some v := by
  obtain ⟨h1, h2⟩ := head_eq n1 n2 n3 line m hm _ _ _ _ v h
  have e : pyIndex no (0 - 1) = some (no - 1) := by
    unfold pyIndex
    rw [if_neg (by omega), if_pos (by omega)]
    congr 1
    omega
  have : orbitalLineDD n1 n2 n3 no line = some ((m, no - 1, no - 1), v) := by
    unfold orbitalLineDD
    rw [h1]
    simp only [Option.bind_eq_bind, Option.bind_some, and_self, if_true]
    rw [h2, e]
    rfl
  unfold readOrbitalDD table
  rw [List.foldl_cons, List.foldl_nil, this]
  exact if_pos rfl

/-! ### Local tensor -/

/-- A line of a file with a local tensor: six columns (specification). -/
structure LocalEntry (line : Str) (i j k l : Nat) (v : ℚ × ℚ) : Prop where
  columns : ∃ i' j' k' l' re im : Str, words line = [i', j', k', l', re, im] ∧
    readInt i' = some (i + 1 : Nat) ∧ readInt j' = some (j + 1 : Nat) ∧ readInt k' = some (k + 1 : Nat) ∧ readInt l' = some (l + 1 : Nat) ∧
    readFloat re = some v.1 ∧ readFloat im = some v.2

/-- All lines have another number of columns or are entries of the tensor (specification). -/
def LocalLines (no : Nat) (ls : List Str) (U : Nat → Nat → Nat → Nat → ℚ × ℚ) : Prop :=
  ∀ line ∈ ls, (words line).length ≠ 6 ∨ ∃ i j k l, i < no ∧ j < no ∧ k < no ∧ l < no ∧ LocalEntry line i j k l (U i j k l)

theorem mapM_length {α β : Type} (f : α → Option β) (l : List α) (r : List β) (h : l.mapM f = some r) : r.length = l.length := by
  induction l generalizing r with
  | nil =>
    simp only [List.mapM_nil, Option.pure_def, Option.some.injEq] at h
    rw [← h]
    rfl
  | cons a l ih =>
    rw [List.mapM_cons] at h
    cases ha : f a with
    | none => simp [ha] at h
    | some b =>
      cases hl : l.mapM f with
      | none => simp [ha, hl] at h
      | some r' =>
        simp only [ha, hl, Option.pure_def, Option.bind_eq_bind, Option.bind_some, Option.some.injEq] at h
        rw [← h, List.length_cons, List.length_cons, ih r' hl]

theorem localLine_other (no : Nat) (line : Str) (h : (words line).length ≠ 6) : localLine no line = none ∧ localLineDD no line = none := by
  have key : orbitals ((words line).take 4) = none ∨ ∀ re im, ((words line).drop 4).mapM readFloat ≠ some [re, im] := by
    by_cases hl : (words line).length < 4
    · left
      unfold orbitals
      cases hm : ((words line).take 4).mapM readInt with
      | none => rfl
      | some r =>
        have := mapM_length _ _ _ hm
        rw [List.length_take] at this
        match r, this with
        | [], _ => rfl
        | [_], _ => rfl
        | [_, _], _ => rfl
        | [_, _, _], _ => rfl
        | _ :: _ :: _ :: _ :: _, h => simp at h; omega
    · right
      intro re im hm
      have := mapM_length _ _ _ hm
      rw [List.length_drop] at this
      simp at this
      omega
  constructor
  · unfold localLine
    rcases key with h | h
    · rw [h]
      rfl
    · cases orbitals ((words line).take 4) with
      | none => rfl
      | some o =>
        simp only [Option.bind_eq_bind, Option.bind_some]
  · unfold localLineDD
    rcases key with h | h
    · rw [h]
      rfl
    · cases orbitals ((words line).take 4) with
      | none => rfl
      | some o =>
        simp only [Option.bind_eq_bind, Option.bind_some]

theorem localLine_entry (no : Nat) (line : Str) (i j k l : Nat) (hi : i < no) (hj : j < no) (hk : k < no) (hl : l < no) (v : ℚ × ℚ)
    (h : LocalEntry line i j k l v) : localLine no line = some ((i, j, k, l), v) ∧
      localLineDD no line = if i = j ∧ k = l then some ((i, k), v) else none := by
  obtain ⟨i', j', k', l', re, im, hw, h1, h2, h3, h4, h5, h6⟩ := h.columns
  have ho : orbitals ((words line).take 4) =
      some (((i + 1 : Nat) : Int) - 1, ((j + 1 : Nat) : Int) - 1, ((k + 1 : Nat) : Int) - 1, ((l + 1 : Nat) : Int) - 1) := by
    rw [hw]
    exact orbitals_eq i' j' k' l' _ _ _ _ h1 h2 h3 h4
  have hv : ((words line).drop 4).mapM readFloat = some [v.1, v.2] := by
    rw [hw]
    simp [List.mapM_cons, h5, h6]
  constructor
  · unfold localLine
    rw [ho, hv]
    simp only [Option.bind_eq_bind, Option.bind_some]
    rw [pyIndex_nat no i hi, pyIndex_nat no j hj, pyIndex_nat no k hk, pyIndex_nat no l hl]
    rfl
  · unfold localLineDD
    rw [ho, hv]
    simp only [Option.bind_eq_bind, Option.bind_some]
    by_cases hd : i = j ∧ k = l
    · rw [if_pos hd, if_pos (by omega), pyIndex_nat no i hi, pyIndex_nat no k hk]
      rfl
    · rw [if_neg hd, if_neg (by omega)]

/-- C144: the local tensor has the order of indices of the file; the density-density part consists of its elements for pairs of equal orbitals. -/
theorem C144_local (no : Nat) (ls : List Str) (U : Nat → Nat → Nat → Nat → ℚ × ℚ) (h : LocalLines no ls U) :
    (∀ i j k l, i < no → j < no → k < no → l < no → (∃ line ∈ ls, LocalEntry line i j k l (U i j k l)) →
      readLocal no ls (i, j, k, l) = some (U i j k l)) ∧
    ∀ i k, i < no → k < no → (∃ line ∈ ls, LocalEntry line i i k k (U i i k k)) → readLocalDD no ls (i, k) = some (U i i k k) := by
  constructor
  · rintro i j k l hi hj hk hl ⟨line, hline, he⟩
    rcases table_some (localLine no) ls (i, j, k, l) with ⟨-, h2⟩ | ⟨line', hl', v, h1, h2⟩
    · exact absurd (localLine_entry no line i j k l hi hj hk hl _ he).1 (h2 line hline _)
    · unfold readLocal
      rw [h2]
      rcases h line' hl' with hs | ⟨i', j', k', l', hi', hj', hk', hl'', he'⟩
      · rw [(localLine_other no line' hs).1] at h1
        cases h1
      · rw [(localLine_entry no line' i' j' k' l' hi' hj' hk' hl'' _ he').1] at h1
        simp only [Option.some.injEq, Prod.mk.injEq] at h1
        obtain ⟨⟨rfl, rfl, rfl, rfl⟩, h1⟩ := h1
        rw [h1]
  · rintro i k hi hk ⟨line, hline, he⟩
    rcases table_some (localLineDD no) ls (i, k) with ⟨-, h2⟩ | ⟨line', hl', v, h1, h2⟩
    · refine absurd ?_ (h2 line hline (U i i k k))
      rw [(localLine_entry no line i i k k hi hi hk hk _ he).2, if_pos ⟨rfl, rfl⟩]
    · unfold readLocalDD
      rw [h2]
      rcases h line' hl' with hs | ⟨i', j', k', l', hi', hj', hk', hl'', he'⟩
      · rw [(localLine_other no line' hs).2] at h1
        cases h1
      · rw [(localLine_entry no line' i' j' k' l' hi' hj' hk' hl'' _ he').2] at h1
        by_cases hd : i' = j' ∧ k' = l'
        · rw [if_pos hd] at h1
          obtain ⟨rfl, rfl⟩ := hd
          simp only [Option.some.injEq, Prod.mk.injEq] at h1
          obtain ⟨⟨rfl, rfl⟩, h1⟩ := h1
          rw [h1]
        · rw [if_neg hd] at h1
          cases h1

/-! ### Models -/

/-- The file lists all density-density elements (specification). -/
def Complete (n1 n2 n3 no : Nat) (ls : List Str) (W : V3 → Nat → Nat → Nat → Nat → ℚ × ℚ) : Prop :=
  Lines n1 n2 n3 no ls W ∧ ∀ m, IsMesh n1 n2 n3 m → ∀ i < no, ∀ k < no,
    ∃ line ∈ ls, Entry n1 n2 n3 line m (i + 1 : Nat) (i + 1 : Nat) (k + 1 : Nat) (k + 1 : Nat) (W m i i k k)

theorem array_eq {no : Nat} (n1 n2 n3 : Nat) (garbage : V3 → Fin no → Fin no → ℂ) (ls : List Str) (W : V3 → Nat → Nat → Nat → Nat → ℚ × ℚ)
    (h : Complete n1 n2 n3 no ls W) (m : V3) (hm : IsMesh n1 n2 n3 m) (a b : Fin no) :
    array n1 n2 n3 garbage ls m a b = toC (W m a a b b) := by
  unfold array
  rw [C144_density n1 n2 n3 no ls W h.1 m hm a b a.2 b.2 (h.2 m hm a a.2 b b.2)]

/-- C144: a model from a complete file has the density-density interaction in the file at all points of the mesh. -/
theorem C144_init {no : Nat} (size : Nat) (hsize : 0 < size) (n1 n2 n3 : Nat) (at' : Fin 3 → Fin 3 → ℝ) (r : Fin no → Fin 3 → ℝ)
    (g g' g'' : V3 → Fin no → Fin no → ℂ) (ls : List Str) (W : V3 → Nat → Nat → Nat → Nat → ℚ × ℚ) (h : Complete n1 n2 n3 no ls W) :
    ∃ l, initOrbital size n1 n2 n3 at' r g g' g'' ls none none = some l ∧
      ∀ m, IsMesh n1 n2 n3 m → ∀ a b : Fin no, bloch l (meshK n1 n2 n3 m) a b = toC (W m a a b b) := by
  obtain ⟨l, hl, hb⟩ := C28_elel size hsize n1 n2 n3 at' r (array n1 n2 n3 g ls)
  refine ⟨l, hl, fun m hm a b => ?_⟩
  rw [hb m hm a b, array_eq n1 n2 n3 g ls W h m hm a b]

/-- C144: if files with full and reduced bare interactions are given, their difference is added. -/
theorem C144_bare {no : Nat} (size : Nat) (hsize : 0 < size) (n1 n2 n3 : Nat) (at' : Fin 3 → Fin 3 → ℝ) (r : Fin no → Fin 3 → ℝ)
    (g g' g'' : V3 → Fin no → Fin no → ℂ) (ls full redu : List Str) (W V V' : V3 → Nat → Nat → Nat → Nat → ℚ × ℚ)
    (h : Complete n1 n2 n3 no ls W) (h' : Complete n1 n2 n3 no full V) (h'' : Complete n1 n2 n3 no redu V') :
    ∃ l, initOrbital size n1 n2 n3 at' r g g' g'' ls (some full) (some redu) = some l ∧
      ∀ m, IsMesh n1 n2 n3 m → ∀ a b : Fin no,
        bloch l (meshK n1 n2 n3 m) a b = toC (W m a a b b) + (toC (V m a a b b) - toC (V' m a a b b)) := by
  obtain ⟨l, hl, hb⟩ := C28_elel size hsize n1 n2 n3 at' r fun m a b =>
    array n1 n2 n3 g ls m a b + array n1 n2 n3 g' full m a b - array n1 n2 n3 g'' redu m a b
  refine ⟨l, hl, fun m hm a b => ?_⟩
  rw [hb m hm a b, array_eq n1 n2 n3 g ls W h m hm a b, array_eq n1 n2 n3 g' full V h' m hm a b, array_eq n1 n2 n3 g'' redu V' h'' m hm a b]
  ring

/-- Position on the periodic mesh. -/
def cellOf (n1 n2 n3 : Nat) (R : V3) : V3 := (R.1 % (n1 : Int), R.2.1 % (n2 : Int), R.2.2 % (n3 : Int))

theorem fold_sum {no : Nat} (n1 n2 n3 : Nat) (l : List (V3 × (Fin no → Fin no → ℂ))) (h : (l.map fun e => cellOf n1 n2 n3 e.1).Nodup) (m : V3)
    (a b : Fin no) : fold n1 n2 n3 l m a b = (l.map fun e => if m = cellOf n1 n2 n3 e.1 then e.2 a b else 0).sum := by
  have key : ∀ t : V3 → Fin no → Fin no → ℂ, (∀ e ∈ l, t (cellOf n1 n2 n3 e.1) = fun _ _ => 0) →
      l.foldl (fun t e m => if m = cellOf n1 n2 n3 e.1 then e.2 else t m) t m a b =
        t m a b + (l.map fun e => if m = cellOf n1 n2 n3 e.1 then e.2 a b else 0).sum := by
    induction l with
    | nil => intro t _; simp
    | cons e l ih =>
      intro t ht
      rw [List.map_cons, List.nodup_cons] at h
      rw [List.foldl_cons, ih h.2, List.map_cons, List.sum_cons]
      · by_cases hm : m = cellOf n1 n2 n3 e.1
        · rw [if_pos hm, if_pos hm, hm, ht e List.mem_cons_self]
          ring
        · rw [if_neg hm, if_neg hm]
          ring
      · intro e' he'
        have : cellOf n1 n2 n3 e'.1 ≠ cellOf n1 n2 n3 e.1 := by
          intro hc
          exact h.1 (List.mem_map.2 ⟨e', he', hc⟩)
        simp only [if_neg this]
        exact ht e' (List.mem_cons_of_mem _ he')
  have := key (fun _ _ _ => 0) fun _ _ => rfl
  rw [zero_add] at this
  exact this

theorem sum_cell (n1 n2 n3 : Nat) (h1 : 0 < n1) (h2 : 0 < n2) (h3 : 0 < n3) (R k : V3) (x : ℂ) :
    ∑ m1 ∈ Finset.range n1, ∑ m2 ∈ Finset.range n2, ∑ m3 ∈ Finset.range n3,
      (if (((m1 : Int), (m2 : Int), (m3 : Int)) : V3) = cellOf n1 n2 n3 R then x else 0) *
        Complex.exp (2 * Real.pi * Complex.I * (m1 * k.1 / n1 + m2 * k.2.1 / n2 + m3 * k.2.2 / n3)) =
      x * phase R (meshK n1 n2 n3 k) := by
  have b1 := Int.emod_nonneg R.1 (by omega : (n1 : Int) ≠ 0)
  have b2 := Int.emod_nonneg R.2.1 (by omega : (n2 : Int) ≠ 0)
  have b3 := Int.emod_nonneg R.2.2 (by omega : (n3 : Int) ≠ 0)
  have c1 := Int.emod_lt_of_pos R.1 (by omega : (0 : Int) < n1)
  have c2 := Int.emod_lt_of_pos R.2.1 (by omega : (0 : Int) < n2)
  have c3 := Int.emod_lt_of_pos R.2.2 (by omega : (0 : Int) < n3)
  rw [Finset.sum_eq_single (R.1 % (n1 : Int)).toNat, Finset.sum_eq_single (R.2.1 % (n2 : Int)).toNat,
    Finset.sum_eq_single (R.2.2 % (n3 : Int)).toNat]
  · rw [if_pos (by simp only [cellOf]; rw [Int.toNat_of_nonneg b1, Int.toNat_of_nonneg b2, Int.toNat_of_nonneg b3])]
    congr 1
    unfold phase meshK
    rw [Complex.exp_eq_exp_iff_exists_int]
    refine ⟨-(R.1 / n1 * k.1 + R.2.1 / n2 * k.2.1 + R.2.2 / n3 * k.2.2), ?_⟩
    have e : ∀ (R : Int) (n : Nat), 0 < n → 0 ≤ R % (n : Int) →
        ((R % (n : Int)).toNat : ℂ) = (R : ℂ) - (n : ℂ) * ((R / (n : Int) : Int) : ℂ) := by
      intro R n hn h
      have h' : ((R % (n : Int)).toNat : Int) = R - n * (R / n) := by
        rw [Int.toNat_of_nonneg h]
        have := Int.mul_ediv_add_emod R n
        linarith
      calc ((R % (n : Int)).toNat : ℂ) = (((R % (n : Int)).toNat : Int) : ℂ) := by push_cast; rfl
        _ = _ := by rw [h']; push_cast; ring
    rw [e R.1 n1 h1 b1, e R.2.1 n2 h2 b2, e R.2.2 n3 h3 b3]
    have d1 : (n1 : ℂ) ≠ 0 := by exact_mod_cast h1.ne'
    have d2 : (n2 : ℂ) ≠ 0 := by exact_mod_cast h2.ne'
    have d3 : (n3 : ℂ) ≠ 0 := by exact_mod_cast h3.ne'
    simp only [Matrix.cons_val_zero, Matrix.cons_val_one, Matrix.cons_val]
    push_cast
    field_simp
    ring
  · intro m _ hm
    rw [if_neg, zero_mul]
    intro he
    apply hm
    have := congrArg (fun v : V3 => v.2.2) he
    simp only [cellOf] at this
    omega
  · intro hm
    exact absurd (Finset.mem_range.2 (by omega)) hm
  · intro m _ hm
    refine Finset.sum_eq_zero fun m3 _ => ?_
    rw [if_neg, zero_mul]
    intro he
    apply hm
    have := congrArg (fun v : V3 => v.2.1) he
    simp only [cellOf] at this
    omega
  · intro hm
    exact absurd (Finset.mem_range.2 (by omega)) hm
  · intro m _ hm
    refine Finset.sum_eq_zero fun m2 _ => Finset.sum_eq_zero fun m3 _ => ?_
    rw [if_neg, zero_mul]
    intro he
    apply hm
    have := congrArg (fun v : V3 => v.1) he
    simp only [cellOf] at this
    omega
  · intro hm
    exact absurd (Finset.mem_range.2 (by omega)) hm

/-- Two lattice vectors are the same on a periodic mesh (specification). -/
def Equivalent (n1 n2 n3 : Nat) (R R' : V3) : Prop := ∃ z : V3, R'.1 = R.1 + n1 * z.1 ∧ R'.2.1 = R.2.1 + n2 * z.2.1 ∧ R'.2.2 = R.2.2 + n3 * z.2.2

theorem equivalent_iff (n1 n2 n3 : Nat) (R R' : V3) : Equivalent n1 n2 n3 R R' ↔ cellOf n1 n2 n3 R = cellOf n1 n2 n3 R' := by
  constructor
  · rintro ⟨z, h1, h2, h3⟩
    unfold cellOf
    rw [h1, h2, h3, Int.add_mul_emod_self_left, Int.add_mul_emod_self_left, Int.add_mul_emod_self_left]
  · intro h
    have h1 := congrArg (fun v : V3 => v.1) h
    have h2 := congrArg (fun v : V3 => v.2.1) h
    have h3 := congrArg (fun v : V3 => v.2.2) h
    simp only [cellOf] at h1 h2 h3
    refine ⟨(R'.1 / n1 - R.1 / n1, R'.2.1 / n2 - R.2.1 / n2, R'.2.2 / n3 - R.2.2 / n3), ?_, ?_, ?_⟩
    · have a := Int.mul_ediv_add_emod R.1 n1
      have b := Int.mul_ediv_add_emod R'.1 n1
      dsimp only
      linarith [a, b, h1]
    · have a := Int.mul_ediv_add_emod R.2.1 n2
      have b := Int.mul_ediv_add_emod R'.2.1 n2
      dsimp only
      linarith [a, b, h2]
    · have a := Int.mul_ediv_add_emod R.2.2 n3
      have b := Int.mul_ediv_add_emod R'.2.2 n3
      dsimp only
      linarith [a, b, h3]

/-- C144: without a mesh, a model from *dat.Wmat* has the lattice vectors and matrices in the file. -/
theorem C144_wmat_direct {no : Nat} (size : Nat) (at' : Fin 3 → Fin 3 → ℝ) (r : Fin no → Fin 3 → ℝ) (l : List (V3 × (Fin no → Fin no → ℂ)))
    (k : Fin 3 → ℝ) (a b : Fin no) : ∃ l', initWmat size none at' r l = some l' ∧ bloch l' k a b = (l.map fun e => e.2 a b * phase e.1 k).sum :=
  ⟨l, rfl, rfl⟩

/-- C144: with a mesh, the model has the same interaction at all points of the mesh, provided that no two lattice vectors in the file are equivalent. -/
theorem C144_wmat_partial {no : Nat} (size : Nat) (hsize : 0 < size) (n1 n2 n3 : Nat) (h1 : 0 < n1) (h2 : 0 < n2) (h3 : 0 < n3)
    (at' : Fin 3 → Fin 3 → ℝ) (r : Fin no → Fin 3 → ℝ) (l : List (V3 × (Fin no → Fin no → ℂ)))
    (hl : l.Pairwise fun e e' => ¬ Equivalent n1 n2 n3 e.1 e'.1) :
    ∃ l', initWmat size (some (n1, n2, n3)) at' r l = some l' ∧
      ∀ k a b, bloch l' (meshK n1 n2 n3 k) a b = (l.map fun e => e.2 a b * phase e.1 (meshK n1 n2 n3 k)).sum := by
  have hn : (l.map fun e => cellOf n1 n2 n3 e.1).Nodup := by
    rw [List.Nodup, List.pairwise_map]
    exact hl.imp fun h hc => h ((equivalent_iff n1 n2 n3 _ _).2 hc)
  obtain ⟨l', hl', hb⟩ := C28_real_space size hsize n1 n2 n3 h1 h2 h3 at' r (fold n1 n2 n3 l)
  refine ⟨l', hl', fun k a b => ?_⟩
  rw [hb k a b]
  simp only [fold_sum n1 n2 n3 l hn]
  clear hl hn hl' hb
  induction l with
  | nil => simp
  | cons e l ih =>
    simp only [List.map_cons, List.sum_cons, add_mul, Finset.sum_add_distrib]
    rw [ih, sum_cell n1 n2 n3 h1 h2 h3 e.1 k (e.2 a b)]

/-- C144 fails for equivalent lattice vectors in the file, as in models of this package, where matrices for lattice vectors on the boundary of the
Wigner-Seitz cell are divided by their number: only the last matrix is used. -/
theorem C144_wmat_violated {no : Nat} (size : Nat) (hsize : 0 < size) (n1 n2 n3 : Nat) (h1 : 0 < n1) (h2 : 0 < n2) (h3 : 0 < n3)
    (at' : Fin 3 → Fin 3 → ℝ) (r : Fin no → Fin 3 → ℝ) (R R' : V3) (h : Equivalent n1 n2 n3 R R') (W W' : Fin no → Fin no → ℂ) :
    ∃ l', initWmat size (some (n1, n2, n3)) at' r [(R, W), (R', W')] = some l' ∧
      ∀ k a b, W a b ≠ 0 → bloch l' (meshK n1 n2 n3 k) a b ≠
        ([(R, W), (R', W')].map fun e => e.2 a b * phase e.1 (meshK n1 n2 n3 k)).sum := by
  obtain ⟨l', hl', hb⟩ := C144_wmat_partial size hsize n1 n2 n3 h1 h2 h3 at' r [(R', W')] (List.pairwise_singleton _ _)
  have e : fold n1 n2 n3 [(R, W), (R', W')] = fold n1 n2 n3 [(R', W')] := by
    have := (equivalent_iff n1 n2 n3 R R').1 h
    unfold cellOf at this
    funext m
    simp only [fold, List.foldl_cons, List.foldl_nil]
    rw [this]
    split <;> rfl
  refine ⟨l', by rw [← hl']; simp only [initWmat]; rw [e], fun k a b hW => ?_⟩
  rw [hb k a b]
  simp only [List.map_cons, List.map_nil, List.sum_cons, List.sum_nil, add_zero]
  intro hc
  have : W a b * phase R (meshK n1 n2 n3 k) = 0 := by linear_combination -hc
  rcases mul_eq_zero.1 this with h | h
  · exact hW h
  · exact Complex.exp_ne_zero _ h

/-! ### Examples -/

/-- Entry for the point (1/2, 0, 0) on a mesh of 2 by 1 by 1 points, listed at (-0.4999, 0, 0). -/
theorem exampleEntry : Entry 2 1 1 " -0.4999 0.0 0.0 1 1 1 1 1.5 -0.25".toList (1, 0, 0) (0 + 1 : Nat) (0 + 1 : Nat) (0 + 1 : Nat) (0 + 1 : Nat)
    (3 / 2, -1 / 4) :=
  ⟨"-0.4999".toList, "0.0".toList, "0.0".toList, "1".toList, "1".toList, "1".toList, "1".toList, "1.5".toList, "-0.25".toList, [],
    by decide +kernel, ⟨-4999 / 10000, -1, by decide +kernel, by norm_num [abs_lt]⟩, ⟨0, 0, by decide +kernel, by norm_num⟩,
    ⟨0, 0, by decide +kernel, by norm_num⟩, by decide +kernel, by decide +kernel, by decide +kernel, by decide +kernel, by decide +kernel,
    by decide +kernel⟩

theorem exampleEntry' : Entry 2 1 1 " 0.0 0.0 0.0 1 1 1 1 2.5 0.0 extra".toList (0, 0, 0) (0 + 1 : Nat) (0 + 1 : Nat) (0 + 1 : Nat) (0 + 1 : Nat)
    (5 / 2, 0) :=
  ⟨"0.0".toList, "0.0".toList, "0.0".toList, "1".toList, "1".toList, "1".toList, "1".toList, "2.5".toList, "0.0".toList, ["extra".toList],
    by decide +kernel, ⟨0, 0, by decide +kernel, by norm_num⟩, ⟨0, 0, by decide +kernel, by norm_num⟩,
    ⟨0, 0, by decide +kernel, by norm_num⟩, by decide +kernel, by decide +kernel, by decide +kernel, by decide +kernel, by decide +kernel,
    by decide +kernel⟩

/-- A file with a header and two entries. -/
def exampleFile : List Str := ["# q1 q2 q3 i j k l".toList, " -0.4999 0.0 0.0 1 1 1 1 1.5 -0.25".toList, " 0.0 0.0 0.0 1 1 1 1 2.5 0.0 extra".toList]

theorem exampleComplete : Complete 2 1 1 1 exampleFile fun m _ _ _ _ => if m.1 = 1 then (3 / 2, -1 / 4) else (5 / 2, 0) := by
  constructor
  · intro line hline
    simp only [exampleFile, List.mem_cons, List.not_mem_nil, or_false] at hline
    rcases hline with rfl | rfl | rfl
    · left
      decide +kernel
    · right
      exact ⟨(1, 0, 0), 0, 0, 0, 0, ⟨by decide, by decide, by decide⟩, one_pos, one_pos, one_pos, one_pos, exampleEntry⟩
    · right
      exact ⟨(0, 0, 0), 0, 0, 0, 0, ⟨by decide, by decide, by decide⟩, one_pos, one_pos, one_pos, one_pos, exampleEntry'⟩
  · rintro ⟨a, b, c⟩ ⟨⟨h1, h2⟩, ⟨h3, h4⟩, h5, h6⟩ i hi k hk
    simp only at h1 h2 h3 h4 h5 h6
    have hb : b = 0 := by omega
    have hc : c = 0 := by omega
    have hi : i = 0 := by omega
    have hk : k = 0 := by omega
    subst hb hc hi hk
    rcases (by omega : a = 0 ∨ a = 1) with rfl | rfl
    · exact ⟨_, List.mem_cons_of_mem _ (List.mem_cons_of_mem _ List.mem_cons_self), exampleEntry'⟩
    · exact ⟨_, List.mem_cons_of_mem _ List.mem_cons_self, exampleEntry⟩

example : readOrbital 2 1 1 1 exampleFile ((1, 0, 0), 0, 0, 0, 0) = some (3 / 2, -1 / 4) :=
  C144_orbital 2 1 1 1 _ _ exampleComplete.1 (1, 0, 0) ⟨by decide, by decide, by decide⟩ 0 0 0 0 one_pos one_pos one_pos one_pos
    ⟨_, List.mem_cons_of_mem _ List.mem_cons_self, exampleEntry⟩

example (at' : Fin 3 → Fin 3 → ℝ) (g : V3 → Fin 1 → Fin 1 → ℂ) : ∃ l, initOrbital 2 2 1 1 at' (fun _ _ => 0) g g g exampleFile none none = some l ∧
    bloch l (meshK 2 1 1 (1, 0, 0)) 0 0 = toC (3 / 2, -1 / 4) := by
  obtain ⟨l, hl, hb⟩ := C144_init 2 (by norm_num) 2 1 1 at' (fun _ _ => 0) g g g _ _ exampleComplete
  exact ⟨l, hl, hb (1, 0, 0) ⟨by decide, by decide, by decide⟩ 0 0⟩

example (at' : Fin 3 → Fin 3 → ℝ) (g : V3 → Fin 1 → Fin 1 → ℂ) :=
  C144_bare 2 (by norm_num) 2 1 1 at' (fun _ _ => 0) g g g _ _ _ _ _ _ exampleComplete exampleComplete exampleComplete

example : readOrbital 2 1 1 2 [] ((0, 0, 0), 1, 0, 1, 0) = none :=
  C144_unset 2 1 1 2 [] (fun _ _ _ _ _ => (0, 0)) (by intro l hl; cases hl) (0, 0, 0) 0 1 0 1 (by intro l hl; cases hl)

example : readOrbitalDD 1 1 1 5 ["0.0 0.0 0.0 0 0 0 0 7.0 0.0".toList] ((0, 0, 0), 4, 4) = some (7, 0) :=
  C144_zero_violated 1 1 1 5 (by norm_num) _ (0, 0, 0) ⟨by decide, by decide, by decide⟩ (7, 0)
    ⟨"0.0".toList, "0.0".toList, "0.0".toList, "0".toList, "0".toList, "0".toList, "0".toList, "7.0".toList, "0.0".toList, [],
      by decide +kernel, ⟨0, 0, by decide +kernel, by norm_num⟩, ⟨0, 0, by decide +kernel, by norm_num⟩,
      ⟨0, 0, by decide +kernel, by norm_num⟩, by decide +kernel, by decide +kernel, by decide +kernel, by decide +kernel, by decide +kernel,
      by decide +kernel⟩

example : LocalLines 2 ["I J K L RE IM extra".toList, " 1 2 2 1 0.5 0.25".toList] fun _ _ _ _ => (1 / 2, 1 / 4) := by
  intro line hline
  simp only [List.mem_cons, List.not_mem_nil, or_false] at hline
  rcases hline with rfl | rfl
  · left
    decide +kernel
  · right
    exact ⟨0, 1, 1, 0, by norm_num, by norm_num, by norm_num, by norm_num, "1".toList, "2".toList, "2".toList, "1".toList, "0.5".toList, "0.25".toList,
      by decide +kernel, by decide +kernel, by decide +kernel, by decide +kernel, by decide +kernel, by decide +kernel, by decide +kernel⟩

example (W W' : Fin 1 → Fin 1 → ℂ) (at' : Fin 3 → Fin 3 → ℝ) :=
  C144_wmat_partial 1 one_pos 3 1 1 (by norm_num) one_pos one_pos at' (fun _ _ => 0) [((0, 0, 0), W), ((-1, 0, 0), W')] (by
    rw [List.pairwise_pair]
    rintro ⟨z, h, -, -⟩
    simp only at h
    omega)

/-- The two lattice vectors of a chain of two cells. -/
example (W : Fin 1 → Fin 1 → ℂ) (at' : Fin 3 → Fin 3 → ℝ) :=
  C144_wmat_violated 1 one_pos 2 1 1 (by norm_num) one_pos one_pos at' (fun _ _ => 0) (1, 0, 0) (-1, 0, 0) ⟨(-1, 0, 0), by decide, by decide, by decide⟩ W W

end Verif.ElEl.Init
