import Verif.TB.Sequence

/-!
# C170: models without matrix elements

`clear` deletes all matrix elements, `standardize` deletes all that vanish. For NumPy, a list of no matrices is an array with one dimension only,
which is not the same as an array of no matrices. The processes other than the first one always create arrays with three dimensions.
-/

namespace Verif.TB.Empty

open Verif.Lattice (V3 vadd vsub Supercell)
open Verif.Fourier (phase bloch)

/-! ### Model -/

/-- Exceptions: `ValueError` and `IndexError`. -/
inductive Err
  | value
  | index
  deriving DecidableEq

/-- The attribute `R`: an array of shape `(len(l), 3)` or `np.array([], dtype=int)` of shape `(0,)`. -/
inductive Vecs
  | rows (l : List V3)
  | flat

/-- The attribute `data`: an array of shape `(len(l), size, size)` or `np.array([])` of shape `(0,)`. -/
inductive Mats (α K : Type)
  | blocks (l : List (α → α → K))
  | flat

/-- The attributes of a model on one process. -/
structure Arrays (α K : Type) where
  R : Vecs
  data : Mats α K

/-- The attributes of a model on the first process and on other processes. -/
structure Procs (α K : Type) where
  first : Arrays α K
  others : Arrays α K

variable {α K : Type}

/-- Arrays of shapes `(count, 3)` and `(count, size, size)`, e.g., `elphmod/el.py` 573-577 after the broadcast. -/
def shaped (l : Blocks α K) : Arrays α K := ⟨.rows (l.map Prod.fst), .blocks (l.map Prod.snd)⟩

/-- `np.array(cells, dtype=int)` and `np.array([const[R] for R in cells])`: `elphmod/el.py` 564-565, 435-436, `elphmod/ph.py` 888-889, 748-749,
`elphmod/elel.py` 201-202, 254-255. -/
def ofList (l : Blocks α K) : Arrays α K :=
  match l with
  | [] => ⟨.flat, .flat⟩
  | e :: l => shaped (e :: l)

/-- `for n in range(len(self.R))`: `self.R[n]` and `self.data[n]`. -/
def items (A : Arrays α K) : Blocks α K :=
  match A.R, A.data with
  | .rows l, .blocks m => l.zip m
  | _, _ => []

/-- `elphmod/el.py` 124 (`H`), `elphmod/ph.py` 167 (`D` without long-range terms), `elphmod/elel.py` 75 (`W`): `self.R.dot(k)` and `np.einsum` raise a
`ValueError` if dimensions do not match. `c` is the conversion to complex numbers. -/
noncomputable def band [AddCommMonoid K] (c : K →+ ℂ) (A : Arrays α K) (k : Fin 3 → ℝ) : Except Err (Matrix α α ℂ) :=
  match A.R, A.data with
  | .rows l, .blocks m => if l.length = m.length then .ok (wmat c (l.zip m) k) else .error .value
  | _, _ => .error .value

/-- `elphmod/el.py` 584-588, `elphmod/ph.py` 925-929 (`clear`): `self.R[:0, :]` and `self.data[:0, :, :]`. -/
def clearArrays (A : Arrays α K) : Except Err (Arrays α K) :=
  match A.R, A.data with
  | .rows _, .blocks _ => .ok ⟨.rows [], .blocks []⟩
  | _, _ => .error .index

/-- `elphmod/el.py` 466-467 (`order_orbitals`), `elphmod/ph.py` 777-784 (`order_atoms`): an array with one dimension cannot be indexed with three
indices; in `ph`, an empty array is reshaped before and after. -/
def orderArrays (ph : Bool) (f : α → α) (A : Arrays α K) : Except Err (Arrays α K) :=
  match A.data with
  | .blocks m => .ok ⟨A.R, .blocks (m.map fun M a b => M (f a) (f b))⟩
  | .flat => if ph then .ok ⟨A.R, .blocks []⟩ else .error .index

/-- `elphmod/el.py` 510-577, `elphmod/ph.py` 841-906, `elphmod/elel.py` 216-264 (`standardize`); `std` is the calculation on the first process for arrays
with the right number of dimensions. -/
def standardizeProcs (std : Blocks α K → Blocks α K) (p : Procs α K) : Procs α K :=
  ⟨ofList (std (items p.first)), shaped (std (items p.first))⟩

open Classical in
/-- `standardize` with `eps`: `abs(self.data).max()` of an empty array raises a `ValueError` on the first process (`elphmod/el.py` 533-534, `elphmod/ph.py`
859-860, `elphmod/elel.py` 229-230). -/
noncomputable def standardizeEps (std : ℝ → Blocks α K → Blocks α K) (eps : ℝ) (p : Procs α K) : Except Err (Procs α K) :=
  if eps ≠ 0 ∧ items p.first = [] then .error .value else .ok (standardizeProcs (std eps) p)

/-- `elphmod/el.py` 469-508 (`shift_orbitals`), `elphmod/ph.py` 797-839 (`shift_atoms`): `np.tile(self.R, (3, 1))` of an array of shape `(0,)` has the shape
`(3, 0)`, from which `S` cannot be subtracted. -/
def shiftProcs [Zero K] (std : Blocks α K → Blocks α K) (s : α → Bool) (S : V3) (p : Procs α K) : Except Err (Procs α K) :=
  match p.first.R with
  | .flat => .error .value
  | .rows _ =>
    let l := std (shiftBlocks s S (items p.first))
    .ok ⟨ofList l, shaped l⟩

/-- Calls of methods of the same object by all processes. -/
inductive Op (α : Type)
  | standardize
  | clear
  | order (f : α → α)
  | shift (s : α → Bool) (S : V3)

/-- One call. -/
def run [Zero K] (ph : Bool) (std : Blocks α K → Blocks α K) : Op α → Procs α K → Except Err (Procs α K)
  | .standardize, p => .ok (standardizeProcs std p)
  | .clear, p => (clearArrays p.first).bind fun a => (clearArrays p.others).map fun b => ⟨a, b⟩
  | .order f, p => (orderArrays ph f p.first).bind fun a => (orderArrays ph f p.others).map fun b => ⟨a, b⟩
  | .shift s S, p => shiftProcs std s S p

/-- Several calls. -/
def runs [Zero K] (ph : Bool) (std : Blocks α K → Blocks α K) : List (Op α) → Procs α K → Except Err (Procs α K)
  | [], p => .ok p
  | o :: os, p => (run ph std o p).bind (runs ph std os)

/-- `elphmod/el.py` 375-377, 390-396, `elphmod/ph.py` 653-655, 668-673 (`supercell`): arrays are reshaped on the first process. -/
def supercellProcs [Zero K] (s : Supercell) (p : Procs α K) : Option (Procs (Nat × α) K) :=
  (supercell s (items p.first)).map fun d => ⟨shaped d, shaped d⟩

/-- `elphmod/elel.py` 195-210 (`supercell`): arrays are not reshaped. -/
def elelSupercellProcs [Zero K] (s : Supercell) (p : Procs α K) : Option (Procs (Nat × α) K) :=
  (supercell s (items p.first)).map fun d => ⟨ofList d, shaped d⟩

/-- `elphmod/el.py` 405-450, `elphmod/ph.py` 736-762 (`unit_cell`): arrays are not reshaped. -/
noncomputable def unitCellProcs [Zero K] (N1 N2 N3 : V3) (cells : List V3) (p : Procs (Nat × α) K) : Procs α K :=
  let l := unitCell N1 N2 N3 cells (items p.first)
  ⟨ofList l, shaped l⟩

/-! ### Specification -/

/-- Specification: all processes have the same model. -/
def same (l : Blocks α K) : Procs α K := ⟨shaped l, shaped l⟩

/-- Specification: the Hamiltonian or dynamical matrix of `standardize` is the same, and nothing is left only if there is nothing. -/
structure IsStd [AddCommMonoid K] (c : K →+ ℂ) (std : Blocks α K → Blocks α K) : Prop where
  wmat : ∀ l k, wmat c (std l) k = wmat c l k
  nil : ∀ l, std l = [] ↔ ∀ e ∈ l, ∀ a b, e.2 a b = 0

/-- Specification: the Bloch matrix after several calls. -/
noncomputable def expected (os : List (Op α)) (k : Fin 3 → ℝ) (H : Matrix α α ℂ) : Matrix α α ℂ :=
  os.foldl (fun H o => match o with
    | .standardize => H
    | .clear => 0
    | .order f => fun a b => H (f a) (f b)
    | .shift s S => fun a b => shiftPhase s S k a * H a b * star (shiftPhase s S k b)) H

/-- Specification: calls that keep the matrix elements. -/
def Keeps : Op α → Prop
  | .standardize => True
  | .clear => False
  | .order f => Function.Bijective f
  | .shift _ _ => True

/-! ### Proofs -/

section
variable [AddCommMonoid K] {c : K →+ ℂ} {std : Blocks α K → Blocks α K}

theorem items_shaped (l : Blocks α K) : items (shaped l) = l := by
  show (l.map Prod.fst).zip (l.map Prod.snd) = l
  exact (List.zip_of_prod rfl rfl).symm

theorem band_shaped (l : Blocks α K) (k : Fin 3 → ℝ) : band c (shaped l) k = .ok (wmat c l k) := by
  unfold band shaped
  simp only [List.length_map, if_true]
  rw [show (l.map Prod.fst).zip (l.map Prod.snd) = l from items_shaped l]

theorem ofList_ne (l : Blocks α K) (h : l ≠ []) : ofList l = shaped l := by
  cases l with
  | nil => exact absurd rfl h
  | cons e l => rfl

theorem wmat_nil (k : Fin 3 → ℝ) : wmat c ([] : Blocks α K) k = 0 := by
  funext a b
  simp [wmat, wsum]

theorem nonzero_of_wmat (l : Blocks α K) (k : Fin 3 → ℝ) (h : wmat c l k ≠ 0) : ∃ e ∈ l, ∃ a b, e.2 a b ≠ 0 := by
  by_contra hn
  push Not at hn
  apply h
  funext a b
  unfold wmat wsum
  rw [List.map_congr_left (g := fun _ => (0 : ℂ)) (fun e he => by show c (e.2 a b) * _ = 0; rw [hn e he a b, map_zero, zero_mul])]
  simp

theorem std_ne (hs : IsStd c std) (l : Blocks α K) (k : Fin 3 → ℝ) (h : wmat c l k ≠ 0) : std l ≠ [] := by
  intro hn
  obtain ⟨e, he, a, b, hab⟩ := nonzero_of_wmat l k h
  exact hab ((hs.nil l).1 hn e he a b)

theorem wmat_shift (s : α → Bool) (S : V3) (l : Blocks α K) (k : Fin 3 → ℝ) :
    wmat c (shiftBlocks s S l) k = fun a b => shiftPhase s S k a * wmat c l k a b * star (shiftPhase s S k b) := by
  funext a b
  exact wsum_shift s S l c k a b

theorem run_keeps (hs : IsStd c std) (ph : Bool) (o : Op α) (ho : Keeps o) (l : Blocks α K) (k0 : Fin 3 → ℝ) (h : wmat c l k0 ≠ 0) :
    ∃ l', run ph std o (same l) = .ok (same l') ∧ (∀ k, wmat c l' k = expected [o] k (wmat c l k)) ∧ wmat c l' k0 ≠ 0 := by
  cases o with
  | standardize =>
    refine ⟨std l, ?_, fun k => hs.wmat l k, by rw [hs.wmat]; exact h⟩
    unfold run standardizeProcs same
    simp only [items_shaped]
    rw [ofList_ne _ (std_ne hs l k0 h)]
  | clear => exact absurd ho id
  | order f =>
    refine ⟨order f l, ?_, fun k => wmat_order c f l k, fun h0 => h ?_⟩
    · unfold run orderArrays same shaped order
      simp only [Except.bind, Except.map, List.map_map]
      rfl
    · rw [wmat_order] at h0
      funext a b
      obtain ⟨a', rfl⟩ := ho.2 a
      obtain ⟨b', rfl⟩ := ho.2 b
      exact congrFun (congrFun h0 a') b'
  | shift s S =>
    have hne : wmat c (shiftBlocks s S l) k0 ≠ 0 := by
      intro h0
      rw [wmat_shift] at h0
      apply h
      funext a b
      have h1 := congrFun (congrFun h0 a) b
      have h2 := shiftPhase_mul_star s S k0 a
      have h3 := shiftPhase_mul_star s S k0 b
      have h4 : shiftPhase s S k0 a ≠ 0 := fun h => by simp [h] at h2
      have h5 : star (shiftPhase s S k0 b) ≠ 0 := fun h => by simp [h] at h3
      have h6 : shiftPhase s S k0 a * wmat c l k0 a b * star (shiftPhase s S k0 b) = 0 := h1
      rcases mul_eq_zero.1 h6 with h7 | h7
      · exact (mul_eq_zero.1 h7).resolve_left h4
      · exact absurd h7 h5
    refine ⟨std (shiftBlocks s S l), ?_, fun k => ?_, by rw [hs.wmat]; exact hne⟩
    · unfold run shiftProcs same
      simp only [items_shaped]
      rw [ofList_ne _ (std_ne hs _ k0 hne)]
      rfl
    · rw [hs.wmat, wmat_shift]
      rfl

/-- C170: unless the Bloch matrix vanishes everywhere, any sequence of `standardize`, `order_orbitals`, `shift_orbitals` (`order_atoms`, `shift_atoms`) raises no
exception, and all processes have the same, expected Bloch matrix. -/
theorem C170_sequence_partial (hs : IsStd c std) (ph : Bool) (os : List (Op α)) (ho : ∀ o ∈ os, Keeps o) (l : Blocks α K) (k0 : Fin 3 → ℝ)
    (h : wmat c l k0 ≠ 0) :
    ∃ p, runs ph std os (same l) = .ok p ∧ ∀ k, band c p.first k = .ok (expected os k (wmat c l k)) ∧
      band c p.others k = .ok (expected os k (wmat c l k)) := by
  induction os generalizing l with
  | nil => exact ⟨same l, rfl, fun k => ⟨band_shaped l k, band_shaped l k⟩⟩
  | cons o os ih =>
    obtain ⟨l', h1, h2, h3⟩ := run_keeps hs ph o (ho o List.mem_cons_self) l k0 h
    obtain ⟨p, h4, h5⟩ := ih (fun o ho' => ho o (List.mem_cons_of_mem _ ho')) l' h3
    refine ⟨p, ?_, fun k => ?_⟩
    · rw [runs, h1]
      exact h4
    · have := h5 k
      rw [h2] at this
      exact this

/-- C170: after `clear`, the Bloch matrix vanishes on all processes. -/
theorem C170_clear (ph : Bool) (l : Blocks α K) :
    ∃ p, runs ph std [.clear] (same l) = .ok p ∧ ∀ k, band c p.first k = .ok 0 ∧ band c p.others k = .ok 0 := by
  refine ⟨⟨⟨.rows [], .blocks []⟩, ⟨.rows [], .blocks []⟩⟩, rfl, fun k => ?_⟩
  have := band_shaped (c := c) ([] : Blocks α K) k
  rw [wmat_nil] at this
  exact ⟨this, this⟩

/-- C170: `standardize` of a model whose matrix elements all vanish (e.g., after `clear`) spoils the model on the first process: `H` (`D`, `W`) raises an
exception there, but is zero on all others. -/
theorem C170_standardize_violated (hs : IsStd c std) (ph : Bool) (l : Blocks α K) (h : ∀ e ∈ l, ∀ a b, e.2 a b = 0) :
    ∃ p, runs ph std [.standardize] (same l) = .ok p ∧ ∀ k, band c p.first k = .error .value ∧ band c p.others k = .ok 0 := by
  have hn := (hs.nil l).2 h
  refine ⟨_, rfl, fun k => ?_⟩
  unfold standardizeProcs same
  simp only [items_shaped, hn]
  refine ⟨rfl, ?_⟩
  rw [band_shaped, wmat_nil]

/-- C170: the same for `shift_orbitals` and `shift_atoms`. -/
theorem C170_shift_violated (hs : IsStd c std) (ph : Bool) (s : α → Bool) (S : V3) (l : Blocks α K) (h : ∀ e ∈ l, ∀ a b, e.2 a b = 0) :
    ∃ p, runs ph std [.shift s S] (same l) = .ok p ∧ ∀ k, band c p.first k = .error .value ∧ band c p.others k = .ok 0 := by
  have hn : std (shiftBlocks s S l) = [] := by
    refine (hs.nil _).2 fun e he a b => ?_
    unfold shiftBlocks at he
    simp only [List.mem_append, List.mem_map] at he
    rcases he with (⟨e', he', rfl⟩ | ⟨e', he', rfl⟩) | ⟨e', he', rfl⟩ <;> dsimp only <;> split_ifs <;> first | rfl | exact h e' he' a b
  refine ⟨_, rfl, fun k => ?_⟩
  simp only [same, items_shaped, hn]
  refine ⟨rfl, ?_⟩
  rw [band_shaped, wmat_nil]

/-- C170: no sequence of calls of these methods repairs the model on the first process: either there is an exception, or `H` still raises one. -/
theorem C170_stuck_violated (hs : IsStd c std) (ph : Bool) (os : List (Op α)) (p p' : Procs α K) (h : p.first.R = .flat)
    (hr : runs ph std os p = .ok p') (k : Fin 3 → ℝ) : band c p'.first k = .error .value := by
  induction os generalizing p with
  | nil =>
    have : p = p' := by simpa [runs] using hr
    subst this
    unfold band
    rw [h]
  | cons o os ih =>
    rw [runs] at hr
    cases hq : run ph std o p with
    | error e =>
      rw [hq] at hr
      exact absurd hr (by simp [Except.bind])
    | ok q =>
      rw [hq] at hr
      refine ih q ?_ hr
      cases o with
      | standardize =>
        have : items p.first = [] := by
          unfold items
          rw [h]
        have h2 : std [] = [] := (hs.nil []).2 (by simp)
        simp only [run, standardizeProcs, this, h2, Except.ok.injEq] at hq
        rw [← hq]
        rfl
      | clear =>
        simp only [run, clearArrays, h, Except.bind] at hq
        exact absurd hq (by simp)
      | order f =>
        simp only [run, Except.bind] at hq
        cases h1 : orderArrays ph f p.first with
        | error e =>
          rw [h1] at hq
          exact absurd hq (by simp)
        | ok a =>
          rw [h1] at hq
          simp only [Except.map] at hq
          cases h2 : orderArrays ph f p.others with
          | error e =>
            rw [h2] at hq
            exact absurd hq (by simp)
          | ok b =>
            rw [h2] at hq
            simp only [Except.ok.injEq] at hq
            rw [← hq]
            show a.R = .flat
            unfold orderArrays at h1
            split at h1
            · simp only [Except.ok.injEq] at h1
              rw [← h1]
              exact h
            · split_ifs at h1
              simp only [Except.ok.injEq] at h1
              rw [← h1]
              exact h
      | shift s S =>
        simp only [run, shiftProcs, h] at hq
        exact absurd hq (by simp)

/-- C170: with a threshold, `standardize` fails for empty models, on the first process only. -/
theorem C170_threshold_violated (stds : ℝ → Blocks α K → Blocks α K) (eps : ℝ) (h : eps ≠ 0) :
    standardizeEps stds eps (same []) = .error .value := by
  unfold standardizeEps
  rw [if_pos ⟨h, rfl⟩]

/-- C170: `supercell` of `el` and `ph` returns a model that can be used on all processes, even if the original one cannot. -/
theorem C170_supercell (s : Supercell) (p : Procs α K) (p' : Procs (Nat × α) K) (h : supercellProcs s p = some p') :
    ∃ d, supercell s (items p.first) = some d ∧ ∀ k, band c p'.first k = .ok (wmat c d k) ∧ band c p'.others k = .ok (wmat c d k) := by
  unfold supercellProcs at h
  obtain ⟨d, h1, h2⟩ := Option.map_eq_some_iff.1 h
  refine ⟨d, h1, fun k => ?_⟩
  rw [← h2]
  exact ⟨band_shaped d k, band_shaped d k⟩

theorem supercell_nil (s : Supercell) : supercell s ([] : Blocks α K) = some [] := by
  have : foldOps s ([] : Blocks α K) = some [] := by
    unfold foldOps
    simp only [List.map_nil]
    have : (List.range s.cells.length).flatMap (fun _ => ([] : List (Option (V3 × Nat × Nat × (α → α → K))))) = [] := by simp
    rw [this]
    rfl
  unfold supercell
  rw [this]
  rfl

/-- C170: the supercell of an empty Coulomb interaction cannot be used on the first process. -/
theorem C170_elel_supercell_violated (s : Supercell) :
    ∃ p', elelSupercellProcs s (same ([] : Blocks α K)) = some p' ∧ ∀ k, band c p'.first k = .error .value ∧ band c p'.others k = .ok 0 := by
  unfold elelSupercellProcs same
  rw [items_shaped, supercell_nil]
  refine ⟨_, rfl, fun k => ⟨rfl, ?_⟩⟩
  rw [band_shaped, wmat_nil]

/-- C170: the unit cell of a supercell without nonzero matrix elements cannot be used on the first process. -/
theorem C170_unit_cell_violated (N1 N2 N3 : V3) (cells : List V3) (l : Blocks (Nat × α) K) (h : ∀ e ∈ l, ∀ a b, e.2 a b = 0) (k : Fin 3 → ℝ) :
    band c (unitCellProcs N1 N2 N3 cells (same l)).first k = .error .value ∧ band c (unitCellProcs N1 N2 N3 cells (same l)).others k = .ok 0 := by
  have hn : unitCell N1 N2 N3 cells l = [] := by
    classical
    unfold unitCell
    have key : ∀ (x : List ((V3 × ((Nat × α) → (Nat × α) → K)) × Nat)), (∀ ei ∈ x, ei.1 ∈ l) →
        x.foldl (fun (d : Blocks α K) ei =>
          let t : α → α → K := fun a b => ei.1.2 (0, a) (ei.2, b)
          if ∃ a b, t a b ≠ 0 then
            let R := vadd (Verif.Lattice.comb ei.1.1 N1 N2 N3) (cells.getD ei.2 (0, 0, 0))
            if R ∈ d.map Prod.fst then d.map fun f => if f.1 = R then (f.1, t) else f else d ++ [(R, t)]
          else d) [] = [] := by
      intro x
      induction x with
      | nil => exact fun _ => rfl
      | cons ei x ih =>
        intro hx
        rw [List.foldl_cons, if_neg]
        · exact ih fun e he => hx e (List.mem_cons_of_mem _ he)
        · push Not
          intro a b
          exact h ei.1 (hx ei List.mem_cons_self) _ _
    apply key
    intro ei hei
    simp only [List.mem_flatMap, List.mem_map] at hei
    obtain ⟨e, he, i, _, rfl⟩ := hei
    exact he
  unfold unitCellProcs same
  simp only [items_shaped, hn]
  refine ⟨rfl, ?_⟩
  rw [band_shaped, wmat_nil]

end

/-! ### Instances -/

/-- `el`: also with symmetrization, nothing is left only if there is nothing. -/
theorem el_std [Fintype α] : IsStd (AddMonoidHom.id ℂ) (elStandardize (α := α) 0 false) where
  wmat := fun l k => by
    rw [wmat_el, wmat_el]
    congr 1
    funext a b
    exact C41_bloch l k a b
  nil := fun l => by
    rw [List.eq_nil_iff_forall_not_mem]
    constructor
    · intro h e he a b
      by_contra hab
      have := (C41_vectors false l e.1).2 ⟨e, he, ⟨a, b, hab⟩, Or.inl rfl⟩
      obtain ⟨x, hx, -⟩ := List.mem_map.1 this
      exact h x hx
    · intro h x hx
      obtain ⟨e, he, ⟨a, b, hab⟩, -⟩ := (C41_vectors false l x.1).1 (List.mem_map_of_mem hx)
      exact hab (h e he a b)

/-- `ph`. -/
theorem ph_std [Fintype α] : IsStd Complex.ofRealHom.toAddMonoidHom (phStandardize (α := α) 0 false) where
  wmat := fun l k => by
    rw [wmat_ph, wmat_ph]
    congr 1
    funext a b
    exact C41_bloch_ph l k a b
  nil := fun l => by
    rw [List.eq_nil_iff_forall_not_mem]
    constructor
    · intro h e he a b
      by_contra hab
      have := (C41_vectors_ph false l e.1).2 ⟨e, he, ⟨a, b, hab⟩, Or.inl rfl⟩
      obtain ⟨x, hx, -⟩ := List.mem_map.1 this
      exact h x hx
    · intro h x hx
      obtain ⟨e, he, ⟨a, b, hab⟩, -⟩ := (C41_vectors_ph false l x.1).1 (List.mem_map_of_mem hx)
      exact hab (h e he a b)

/-- `elel`. -/
theorem elel_std [Fintype α] : IsStd (AddMonoidHom.id ℂ) (elelStandardize (α := α) 0) := by
  have : (elelStandardize (α := α) 0) = elStandardize 0 false := by
    funext l
    simp only [elStandardize, elelStandardize, Bool.false_eq_true, if_false]
  rw [this]
  exact el_std

/-! ### Examples -/

/-- A chain with two orbitals. -/
noncomputable def chain2 : Blocks (Fin 2) ℂ := [((0, 0, 0), fun a b => if a = b then 0 else 1), ((1, 0, 0), fun a b => if a = 0 ∧ b = 1 then 2 else 0)]

/-- Hypotheses of `C170_sequence_partial`. -/
example := C170_sequence_partial (el_std (α := Fin 2)) false [.standardize, .order (Equiv.swap 0 1), .shift (fun a => a = 1) (1, 0, 0), .standardize]
  (by
    intro o ho
    simp only [List.mem_cons, List.not_mem_nil, or_false] at ho
    rcases ho with rfl | rfl | rfl | rfl
    · trivial
    · exact (Equiv.swap (0 : Fin 2) 1).bijective
    · trivial
    · trivial) chain2 0 (by
    intro h
    have := congrFun (congrFun h 1) 0
    simp [wmat, wsum, chain2, phase] at this)

/-- Hypotheses of the theorems about vanishing models: one orbital at the Fermi level without hopping. -/
example := C170_standardize_violated (el_std (α := Fin 1)) false [((0, 0, 0), fun _ _ => 0)] (by simp)

example := C170_shift_violated (ph_std (α := Fin 3)) true (fun _ => true) (1, 0, 0) [] (by simp)

example := C170_standardize_violated (elel_std (α := Fin 2)) false [] (by simp)

/-- Hypotheses of `C170_stuck_violated`: in `ph`, a sequence of calls without exceptions. -/
example := C170_stuck_violated (ph_std (α := Fin 3)) true [.order id, .order Fin.rev] ⟨⟨.flat, .flat⟩, shaped []⟩ _ rfl rfl

example := C170_threshold_violated (fun eps => elStandardize (α := Fin 2) eps false) 1e-3 (by norm_num)

example := C170_unit_cell_violated (c := AddMonoidHom.id ℂ) (2, 0, 0) (0, 1, 0) (0, 0, 1) [(0, 0, 0), (1, 0, 0)]
  ([((0, 0, 0), fun _ _ => 0)] : Blocks (Nat × Fin 1) ℂ) (by simp) 0

end Verif.TB.Empty
