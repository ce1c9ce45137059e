import Mathlib.Analysis.SpecialFunctions.Complex.Arg
import Mathlib.LinearAlgebra.Matrix.Hermitian
import Mathlib.Analysis.Real.Pi.Bounds
import Mathlib.Data.List.OfFn
import Mathlib.Data.List.FinRange
import Mathlib.Tactic.LinearCombination
import Mathlib.Tactic.NormNum
import Mathlib.Tactic.FinCases

/-!
# One k point in `dispersion` (C92)

The numerical diagonalizations `np.linalg.eigh` and `np.linalg.eig` and the sorting functions of NumPy are parameters; what they are
assumed to return is stated in the theorems.
-/

namespace Verif.Bands

open Complex

/-- Python's `max(..., key=abs)`: the first element of largest modulus. -/
noncomputable def largest : List ℂ → ℂ
  | [] => 0
  | x :: l => l.foldl (fun m y => if ‖m‖ < ‖y‖ then y else m) x

/-- `elphmod/dispersion.py` 119-122: `my_V[point, :, band] *= exp(-1j * angle(max(my_V[point, :, band], key=abs)))`. -/
noncomputable def gaugeVec {d : Nat} (V : Fin d → ℂ) : Fin d → ℂ :=
  fun x => V x * cexp (-I * (arg (largest (List.ofFn V)) : ℂ))

/-- `elphmod/dispersion.py` 104-109 and 119-122: eigenvalues and eigenvectors (second argument of `V`: band) in the Hermitian case. -/
noncomputable def pointHermitian {d : Nat} (eigh : Matrix (Fin d) (Fin d) ℂ → (Fin d → ℝ) × (Fin d → Fin d → ℂ)) (gauge : Bool)
    (A : Matrix (Fin d) (Fin d) ℂ) : (Fin d → ℝ) × (Fin d → Fin d → ℂ) :=
  let (v, V) := if d = 1 then ((fun x => (A x x).re), fun _ _ => 1) else eigh A
  (v, if gauge then fun x n => gaugeVec (fun y => V y n) x else V)

/-- `elphmod/dispersion.py` 140-144: eigenvalues without eigenvectors in the Hermitian case. -/
noncomputable def valuesHermitian {d : Nat} (eigvalsh : Matrix (Fin d) (Fin d) ℂ → Fin d → ℝ) (A : Matrix (Fin d) (Fin d) ℂ) :
    Fin d → ℝ :=
  if d = 1 then fun x => (A x x).re else eigvalsh A

/-- `elphmod/dispersion.py` 104-106 and 110-122: the non-Hermitian case. -/
noncomputable def pointGeneral {d : Nat} (eig : Matrix (Fin d) (Fin d) ℂ → (Fin d → ℂ) × (Fin d → Fin d → ℂ))
    (argsort : (Fin d → ℂ) → Fin d → Fin d) (gauge : Bool) (A : Matrix (Fin d) (Fin d) ℂ) : (Fin d → ℂ) × (Fin d → Fin d → ℂ) :=
  let (v, V) := if d = 1 then ((fun x => A x x), fun _ _ => 1)
    else ((fun n => (eig A).1 (argsort (eig A).1 n)), fun x n => (eig A).2 x (argsort (eig A).1 n))
  (v, if gauge then fun x n => gaugeVec (fun y => V y n) x else V)

/-- `elphmod/dispersion.py` 140-147: eigenvalues without eigenvectors in the non-Hermitian case. -/
noncomputable def valuesGeneral {d : Nat} (eigvals : Matrix (Fin d) (Fin d) ℂ → Fin d → ℂ) (sort : (Fin d → ℂ) → Fin d → ℂ)
    (A : Matrix (Fin d) (Fin d) ℂ) : Fin d → ℂ :=
  if d = 1 then fun x => A x x else sort (eigvals A)

/-- `elphmod/dispersion.py` 135-139: the components `atom` and `atom + atoms` of all eigenvectors are rotated by `-phi`. -/
noncomputable def rotateStep (phi : ℝ) (atoms : Nat) (V : Nat → ℂ) (atom : Nat) : Nat → ℂ := fun x =>
  if x = atom then Real.cos (-phi) * V atom - Real.sin (-phi) * V (atom + atoms)
  else if x = atom + atoms then Real.sin (-phi) * V atom + Real.cos (-phi) * V (atom + atoms)
  else V x

/-- `elphmod/dispersion.py` 126-139: loop over atoms; `q` are the Cartesian coordinates of the wave vector in the first Brillouin
zone. -/
noncomputable def rotateVec (q : ℝ × ℝ) (atoms : Nat) (V : Nat → ℂ) : Nat → ℂ :=
  (List.range atoms).foldl (rotateStep (arg ⟨q.1, q.2⟩) atoms) V

/-! ## Specification -/

/-- Eigenpairs. -/
def Eigenpairs {d : Nat} (A : Matrix (Fin d) (Fin d) ℂ) (v : Fin d → ℂ) (V : Fin d → Fin d → ℂ) : Prop :=
  ∀ n x, ∑ y, A x y * V y n = v n * V x n

/-- Orthonormal columns. -/
def OrthoCols {d : Nat} (V : Fin d → Fin d → ℂ) : Prop :=
  ∀ m n, ∑ x, star (V x m) * V x n = if m = n then 1 else 0

/-- NumPy's order of complex numbers. -/
def lexLE (a b : ℂ) : Prop := a.re < b.re ∨ a.re = b.re ∧ a.im ≤ b.im

/-- Phase-fixed vector: a component of largest modulus is real and not negative. -/
def Fixed {d : Nat} (V : Fin d → ℂ) : Prop := ∃ x, (∀ y, ‖V y‖ ≤ ‖V x‖) ∧ V x = (‖V x‖ : ℂ)

/-! ## Gauge -/

theorem phase_mul (z : ℂ) : z * cexp (-I * (arg z : ℂ)) = (‖z‖ : ℂ) := by
  have h := norm_mul_exp_arg_mul_I z
  calc z * cexp (-I * (arg z : ℂ)) = (‖z‖ : ℂ) * (cexp ((arg z : ℂ) * I) * cexp (-I * (arg z : ℂ))) := by
        rw [← mul_assoc, h]
    _ = (‖z‖ : ℂ) := by
        rw [← Complex.exp_add]
        simp [mul_comm]

theorem norm_phase (z : ℂ) : ‖cexp (-I * (arg z : ℂ))‖ = 1 := by
  rw [Complex.norm_exp]
  simp

theorem fold_largest (l : List ℂ) : ∀ x : ℂ,
    (l.foldl (fun m y => if ‖m‖ < ‖y‖ then y else m) x = x ∨ l.foldl (fun m y => if ‖m‖ < ‖y‖ then y else m) x ∈ l) ∧
    ‖x‖ ≤ ‖l.foldl (fun m y => if ‖m‖ < ‖y‖ then y else m) x‖ ∧
    ∀ y ∈ l, ‖y‖ ≤ ‖l.foldl (fun m y => if ‖m‖ < ‖y‖ then y else m) x‖ := by
  induction l with
  | nil => intro x; simp
  | cons a l ih =>
    intro x
    rw [List.foldl_cons]
    by_cases h : ‖x‖ < ‖a‖
    · rw [if_pos h]
      obtain ⟨h1, h2, h3⟩ := ih a
      refine ⟨Or.inr ?_, h.le.trans h2, ?_⟩
      · rcases h1 with h1 | h1
        · rw [h1]
          exact List.mem_cons_self
        · exact List.mem_cons_of_mem _ h1
      · intro y hy
        rcases List.mem_cons.1 hy with rfl | hy
        · exact h2
        · exact h3 y hy
    · rw [if_neg h]
      obtain ⟨h1, h2, h3⟩ := ih x
      refine ⟨h1.imp id (List.mem_cons_of_mem _), h2, ?_⟩
      intro y hy
      rcases List.mem_cons.1 hy with rfl | hy
      · exact (not_lt.1 h).trans h2
      · exact h3 y hy

theorem largest_spec (l : List ℂ) (hl : l ≠ []) : largest l ∈ l ∧ ∀ y ∈ l, ‖y‖ ≤ ‖largest l‖ := by
  cases l with
  | nil => exact absurd rfl hl
  | cons a l =>
    obtain ⟨h1, h2, h3⟩ := fold_largest l a
    refine ⟨?_, ?_⟩
    · rcases h1 with h1 | h1
      · exact List.mem_cons.2 (Or.inl h1)
      · exact List.mem_cons_of_mem _ h1
    · intro y hy
      rcases List.mem_cons.1 hy with rfl | hy
      · exact h2
      · exact h3 y hy

theorem largest_smul (c : ℂ) (hc : ‖c‖ = 1) (l : List ℂ) : largest (l.map fun y => c * y) = c * largest l := by
  cases l with
  | nil => simp [largest]
  | cons a l =>
    simp only [List.map_cons, largest]
    induction l generalizing a with
    | nil => simp
    | cons b l ih =>
      simp only [List.map_cons, List.foldl_cons, norm_mul, hc, one_mul]
      by_cases h : ‖a‖ < ‖b‖
      · simp only [if_pos h]
        exact ih b
      · simp only [if_neg h]
        exact ih a

theorem norm_gaugeVec {d : Nat} (V : Fin d → ℂ) (x : Fin d) : ‖gaugeVec V x‖ = ‖V x‖ := by
  unfold gaugeVec
  rw [norm_mul, norm_phase, mul_one]

/-- C92, gauge: a component of largest modulus of each eigenvector is real and not negative; moduli are unchanged. -/
theorem C92_gauge {d : Nat} (hd : 0 < d) (V : Fin d → ℂ) : Fixed (gaugeVec V) ∧ ∀ x, ‖gaugeVec V x‖ = ‖V x‖ := by
  have hne : List.ofFn V ≠ [] := by
    rw [Ne, List.ofFn_eq_nil_iff]
    omega
  obtain ⟨h1, h2⟩ := largest_spec (List.ofFn V) hne
  obtain ⟨x, hx⟩ := List.mem_ofFn' _ _ |>.1 h1
  refine ⟨⟨x, ?_, ?_⟩, norm_gaugeVec V⟩
  · intro y
    rw [norm_gaugeVec, norm_gaugeVec, hx]
    exact h2 _ (List.mem_ofFn' _ _ |>.2 ⟨y, rfl⟩)
  · rw [norm_gaugeVec]
    unfold gaugeVec
    rw [← hx]
    exact phase_mul _

/-- C92, gauge: the result does not depend on the phase chosen by the diagonalization routine. -/
theorem C92_phase {d : Nat} (V : Fin d → ℂ) (c : ℂ) (hc : ‖c‖ = 1) : gaugeVec (fun x => c * V x) = gaugeVec V := by
  have hmap : List.ofFn (fun x => c * V x) = (List.ofFn V).map fun y => c * y := by
    rw [List.map_ofFn]
    rfl
  have hL : largest (List.ofFn fun x => c * V x) = c * largest (List.ofFn V) := by
    rw [hmap, largest_smul c hc]
  funext x
  by_cases h0 : largest (List.ofFn V) = 0
  · have hne : List.ofFn V ≠ [] := by
      rw [Ne, List.ofFn_eq_nil_iff]
      have := x.isLt
      omega
    have := (largest_spec (List.ofFn V) hne).2 (V x) (List.mem_ofFn' _ _ |>.2 ⟨x, rfl⟩)
    rw [h0, norm_zero] at this
    have : V x = 0 := norm_le_zero_iff.1 this
    simp [gaugeVec, this]
  · have e1 := phase_mul (largest (List.ofFn V))
    have e2 := phase_mul (c * largest (List.ofFn V))
    rw [norm_mul, hc, one_mul] at e2
    unfold gaugeVec
    rw [hL]
    have : c * cexp (-I * (arg (c * largest (List.ofFn V)) : ℂ)) = cexp (-I * (arg (largest (List.ofFn V)) : ℂ)) := by
      apply mul_left_cancel₀ h0
      rw [e1, ← e2]
      ring
    rw [← this]
    ring

theorem gauge_eigen {d : Nat} (A : Matrix (Fin d) (Fin d) ℂ) (v : Fin d → ℂ) (V : Fin d → Fin d → ℂ) (h : Eigenpairs A v V) :
    Eigenpairs A v fun x n => gaugeVec (fun y => V y n) x := by
  intro n x
  have := h n x
  simp only [gaugeVec]
  generalize cexp (-I * (arg (largest (List.ofFn fun y => V y n)) : ℂ)) = p
  calc ∑ y, A x y * (V y n * p) = (∑ y, A x y * V y n) * p := by
        rw [Finset.sum_mul]
        exact Finset.sum_congr rfl fun y _ => by ring
    _ = v n * (V x n * p) := by rw [this]; ring

theorem gauge_ortho {d : Nat} (V : Fin d → Fin d → ℂ) (h : OrthoCols V) :
    OrthoCols fun x n => gaugeVec (fun y => V y n) x := by
  intro m n
  have hmn := h m n
  simp only [gaugeVec]
  have hp : ∀ n, ‖cexp (-I * (arg (largest (List.ofFn fun y => V y n)) : ℂ))‖ = 1 := fun n => norm_phase _
  generalize hP : (fun n => cexp (-I * (arg (largest (List.ofFn fun y => V y n)) : ℂ))) = P
  have hP' : ∀ n, cexp (-I * (arg (largest (List.ofFn fun y => V y n)) : ℂ)) = P n := fun n => by rw [← hP]
  simp only [hP'] at hp ⊢
  calc ∑ x, star (V x m * P m) * (V x n * P n) = (∑ x, star (V x m) * V x n) * (star (P m) * P n) := by
        rw [Finset.sum_mul]
        exact Finset.sum_congr rfl fun y _ => by rw [star_mul']; ring
    _ = if m = n then 1 else 0 := by
        rw [hmn]
        by_cases e : m = n
        · subst e
          rw [if_pos rfl, one_mul]
          have : star (P m) * P m = ((‖P m‖ ^ 2 : ℝ) : ℂ) := by
            rw [mul_comm]
            exact (Complex.mul_conj' (P m)).trans (by push_cast; rfl)
          rw [this, hp m]
          simp
        · rw [if_neg e, zero_mul]

/-- C92, Hermitian matrices: for every Hermitian matrix and a correct diagonalization routine, `dispersion` yields eigenvalues in
ascending order with a corresponding orthonormal set of eigenvectors, phase-fixed with `gauge=True`; the branch for one band and the
branch without eigenvectors yield the same eigenvalues. -/
theorem C92_hermitian {d : Nat} (eigh : Matrix (Fin d) (Fin d) ℂ → (Fin d → ℝ) × (Fin d → Fin d → ℂ))
    (eigvalsh : Matrix (Fin d) (Fin d) ℂ → Fin d → ℝ) (gauge : Bool) (A : Matrix (Fin d) (Fin d) ℂ) (hA : A.IsHermitian)
    (heig : Eigenpairs A (fun n => ((eigh A).1 n : ℂ)) (eigh A).2) (hort : OrthoCols (eigh A).2) (hasc : Monotone (eigh A).1)
    (hval : eigvalsh A = (eigh A).1) :
    Eigenpairs A (fun n => ((pointHermitian eigh gauge A).1 n : ℂ)) (pointHermitian eigh gauge A).2 ∧
    OrthoCols (pointHermitian eigh gauge A).2 ∧ Monotone (pointHermitian eigh gauge A).1 ∧
    (gauge = true → ∀ n, Fixed fun x => (pointHermitian eigh gauge A).2 x n) ∧
    valuesHermitian eigvalsh A = (pointHermitian eigh gauge A).1 := by
  have key : ∀ (v : Fin d → ℝ) (V : Fin d → Fin d → ℂ), Eigenpairs A (fun n => (v n : ℂ)) V → OrthoCols V → Monotone v →
      Eigenpairs A (fun n => (v n : ℂ)) (if gauge then fun x n => gaugeVec (fun y => V y n) x else V) ∧
      OrthoCols (if gauge then fun x n => gaugeVec (fun y => V y n) x else V) ∧ Monotone v ∧
      (gauge = true → ∀ n, Fixed fun x => (if gauge then fun x n => gaugeVec (fun y => V y n) x else V) x n) := by
    intro v V h1 h2 h3
    cases gauge with
    | false => exact ⟨by simpa using h1, by simpa using h2, h3, by simp⟩
    | true =>
      simp only [if_true]
      exact ⟨gauge_eigen A _ V h1, gauge_ortho V h2, h3, fun _ n => (C92_gauge (Fin.pos n) _).1⟩
  unfold pointHermitian valuesHermitian
  by_cases hd : d = 1
  · simp only [if_pos hd]
    subst hd
    have h := key (fun x => (A x x).re) (fun _ _ => 1) ?_ ?_ ?_
    · exact ⟨h.1, h.2.1, h.2.2.1, h.2.2.2, by first | rfl | trivial⟩
    · intro n x
      have hx : x = n := Subsingleton.elim _ _
      subst hx
      have := hA.apply x x
      have him : (A x x).im = 0 := by
        have := congrArg Complex.im this
        simp only [RCLike.star_def, Complex.conj_im] at this
        linarith
      have : A x x = ((A x x).re : ℂ) := by
        apply Complex.ext <;> simp [him]
      have hs : ∀ f : Fin 1 → ℂ, ∑ y, f y = f x := fun f => by
        have hx : x = 0 := Subsingleton.elim _ _
        rw [hx]
        simp
      rw [hs]
      simpa using this
    · intro m n
      have : m = n := Subsingleton.elim _ _
      simp [this]
    · intro a b _
      have : a = b := Subsingleton.elim _ _
      rw [this]
  · simp only [if_neg hd]
    have h := key _ _ heig hort hasc
    exact ⟨h.1, h.2.1, h.2.2.1, h.2.2.2, hval⟩

theorem lexLE_antisymm {a b : ℂ} (h1 : lexLE a b) (h2 : lexLE b a) : a = b := by
  rcases h1 with h1 | ⟨h1, h1'⟩ <;> rcases h2 with h2 | ⟨h2, h2'⟩
  · linarith
  · linarith
  · linarith
  · exact Complex.ext h1 (by linarith)

/-- C92, general matrices: eigenvalues and eigenvectors are sorted consistently, and the values are the same as those obtained
without eigenvectors. -/
theorem C92_general {d : Nat} (eig : Matrix (Fin d) (Fin d) ℂ → (Fin d → ℂ) × (Fin d → Fin d → ℂ))
    (eigvals : Matrix (Fin d) (Fin d) ℂ → Fin d → ℂ) (argsort : (Fin d → ℂ) → Fin d → Fin d) (sort : (Fin d → ℂ) → Fin d → ℂ)
    (gauge : Bool) (A : Matrix (Fin d) (Fin d) ℂ) (heig : Eigenpairs A (eig A).1 (eig A).2)
    (hvals : (List.ofFn (eigvals A)).Perm (List.ofFn (eig A).1))
    (hperm : ∀ v, Function.Bijective (argsort v)) (hasc : ∀ (v : Fin d → ℂ) (m n : Fin d), m ≤ n → lexLE (v (argsort v m)) (v (argsort v n)))
    (hsort : ∀ v, (List.ofFn (sort v)).Perm (List.ofFn v)) (hsasc : ∀ v m n, m ≤ n → lexLE (sort v m) (sort v n)) :
    Eigenpairs A (pointGeneral eig argsort gauge A).1 (pointGeneral eig argsort gauge A).2 ∧
    (∀ m n, m ≤ n → lexLE ((pointGeneral eig argsort gauge A).1 m) ((pointGeneral eig argsort gauge A).1 n)) ∧
    (gauge = true → ∀ n, Fixed fun x => (pointGeneral eig argsort gauge A).2 x n) ∧
    valuesGeneral eigvals sort A = (pointGeneral eig argsort gauge A).1 := by
  have key : ∀ (v : Fin d → ℂ) (V : Fin d → Fin d → ℂ), Eigenpairs A v V →
      Eigenpairs A v (if gauge then fun x n => gaugeVec (fun y => V y n) x else V) ∧
      (gauge = true → ∀ n, Fixed fun x => (if gauge then fun x n => gaugeVec (fun y => V y n) x else V) x n) := by
    intro v V h1
    cases gauge with
    | false => exact ⟨by simpa using h1, by simp⟩
    | true =>
      simp only [if_true]
      exact ⟨gauge_eigen A _ V h1, fun _ n => (C92_gauge (Fin.pos n) _).1⟩
  unfold pointGeneral valuesGeneral
  by_cases hd : d = 1
  · simp only [if_pos hd]
    subst hd
    have h := key (fun x => A x x) (fun _ _ => 1) ?_
    · refine ⟨h.1, ?_, h.2, by first | rfl | trivial⟩
      intro m n _
      have : m = n := Subsingleton.elim _ _
      rw [this]
      exact Or.inr ⟨rfl, le_refl _⟩
    · intro n x
      have hx : x = n := Subsingleton.elim _ _
      subst hx
      have hs : ∀ f : Fin 1 → ℂ, ∑ y, f y = f x := fun f => by
        have hx : x = 0 := Subsingleton.elim _ _
        rw [hx]
        simp
      rw [hs]
  · simp only [if_neg hd]
    have h := key (fun n => (eig A).1 (argsort (eig A).1 n)) (fun x n => (eig A).2 x (argsort (eig A).1 n))
      (fun n x => heig _ x)
    refine ⟨h.1, fun m n => hasc _ m n, h.2, ?_⟩
    apply List.ofFn_injective
    have hp : (List.ofFn (sort (eigvals A))).Perm (List.ofFn fun n => (eig A).1 (argsort (eig A).1 n)) := by
      refine ((hsort _).trans hvals).trans ?_
      have := Equiv.Perm.ofFn_comp_perm (Equiv.ofBijective _ (hperm (eig A).1)) (eig A).1
      exact this.symm
    have hs1 : (List.ofFn (sort (eigvals A))).Pairwise lexLE := by
      rw [List.pairwise_ofFn]
      exact fun i j hij => hsasc _ i j hij.le
    have hs2 : (List.ofFn fun n => (eig A).1 (argsort (eig A).1 n)).Pairwise lexLE := by
      rw [List.pairwise_ofFn]
      exact fun i j hij => hasc _ i j hij.le
    exact hp.eq_of_pairwise (fun a b _ _ h1 h2 => lexLE_antisymm h1 h2) hs1 hs2

/-! ## Rotation -/

theorem rotate_fold (phi : ℝ) (atoms : Nat) (V : Nat → ℂ) : ∀ n, n ≤ atoms →
    ((List.range n).foldl (rotateStep phi atoms) V) = fun x =>
      if x < n then Real.cos phi * V x + Real.sin phi * V (x + atoms)
      else if atoms ≤ x ∧ x < atoms + n then - Real.sin phi * V (x - atoms) + Real.cos phi * V x
      else V x := by
  intro n
  induction n with
  | zero =>
    intro _
    funext x
    have : ¬ (atoms ≤ x ∧ x < atoms + 0) := by omega
    simp [this]
  | succ n ih =>
    intro hn
    rw [List.range_succ, List.foldl_append, ih (by omega)]
    funext x
    simp only [List.foldl_cons, List.foldl_nil, rotateStep, Real.cos_neg, Real.sin_neg]
    have h1 : ¬ (n < n) := by omega
    have h2 : ¬ (atoms ≤ n ∧ n < atoms + n) := by omega
    have h3 : ¬ (n + atoms < n) := by omega
    have h4 : ¬ (atoms ≤ n + atoms ∧ n + atoms < atoms + n) := by omega
    simp only [if_neg h1, if_neg h2, if_neg h3, if_neg h4]
    by_cases e1 : x = n
    · subst e1
      rw [if_pos rfl, if_pos (by omega)]
      push_cast
      ring
    · rw [if_neg e1]
      by_cases e2 : x = n + atoms
      · subst e2
        rw [if_pos rfl, if_neg (by omega), if_pos (by omega)]
        have : n + atoms - atoms = n := by omega
        rw [this]
        push_cast
        ring
      · rw [if_neg e2]
        by_cases e3 : x < n
        · rw [if_pos e3, if_pos (by omega)]
        · rw [if_neg e3, if_neg (by omega : ¬ x < n + 1)]
          by_cases e4 : atoms ≤ x ∧ x < atoms + n
          · rw [if_pos e4, if_pos (by omega)]
          · rw [if_neg e4, if_neg (by omega)]

theorem rotateVec_eq (q : ℝ × ℝ) (atoms : Nat) (V : Nat → ℂ) (x : Nat) : rotateVec q atoms V x =
    if x < atoms then Real.cos (arg ⟨q.1, q.2⟩) * V x + Real.sin (arg ⟨q.1, q.2⟩) * V (x + atoms)
    else if atoms ≤ x ∧ x < atoms + atoms then - Real.sin (arg ⟨q.1, q.2⟩) * V (x - atoms) + Real.cos (arg ⟨q.1, q.2⟩) * V x
    else V x := by
  unfold rotateVec
  rw [rotate_fold _ atoms V atoms (le_refl _)]

/-- C92, rotation (missing: the order of the components used elsewhere in the code, see `C92_rotate_violated`): if the `x`
components of all atoms are followed by the `y` components of all atoms, the in-plane displacement of each atom is expressed in the
coordinate system with the first axis along the wave vector. -/
theorem C92_rotate_partial (q : ℝ × ℝ) (hq : q ≠ (0, 0)) (atoms : Nat) (V : Nat → ℂ) (a : Nat) (ha : a < atoms) :
    (Real.sqrt (q.1 ^ 2 + q.2 ^ 2) : ℂ) * rotateVec q atoms V a = q.1 * V a + q.2 * V (a + atoms) ∧
    (Real.sqrt (q.1 ^ 2 + q.2 ^ 2) : ℂ) * rotateVec q atoms V (a + atoms) = - q.2 * V a + q.1 * V (a + atoms) ∧
    rotateVec q atoms V (a + 2 * atoms) = V (a + 2 * atoms) := by
  have hz : (⟨q.1, q.2⟩ : ℂ) ≠ 0 := by
    intro h
    apply hq
    have h1 := congrArg Complex.re h
    have h2 := congrArg Complex.im h
    simp only [Complex.zero_re, Complex.zero_im] at h1 h2
    exact Prod.ext h1 h2
  have hn : ‖(⟨q.1, q.2⟩ : ℂ)‖ = Real.sqrt (q.1 ^ 2 + q.2 ^ 2) := by
    rw [Complex.norm_def, Complex.normSq_mk]
    congr 1
    ring
  have hn0 : Real.sqrt (q.1 ^ 2 + q.2 ^ 2) ≠ 0 := by
    rw [← hn]
    exact norm_ne_zero_iff.2 hz
  have hc : Real.sqrt (q.1 ^ 2 + q.2 ^ 2) * Real.cos (arg ⟨q.1, q.2⟩) = q.1 := by
    rw [Complex.cos_arg hz, hn]
    field_simp
  have hs : Real.sqrt (q.1 ^ 2 + q.2 ^ 2) * Real.sin (arg ⟨q.1, q.2⟩) = q.2 := by
    rw [Complex.sin_arg, hn]
    field_simp
  have hc' : (Real.sqrt (q.1 ^ 2 + q.2 ^ 2) : ℂ) * (Real.cos (arg ⟨q.1, q.2⟩) : ℂ) = (q.1 : ℂ) := by
    rw [← Complex.ofReal_mul, hc]
  have hs' : (Real.sqrt (q.1 ^ 2 + q.2 ^ 2) : ℂ) * (Real.sin (arg ⟨q.1, q.2⟩) : ℂ) = (q.2 : ℂ) := by
    rw [← Complex.ofReal_mul, hs]
  refine ⟨?_, ?_, ?_⟩
  · rw [rotateVec_eq, if_pos ha]
    linear_combination V a * hc' + V (a + atoms) * hs'
  · rw [rotateVec_eq, if_neg (by omega), if_pos (by omega), Nat.add_sub_cancel]
    linear_combination - V a * hs' + V (a + atoms) * hc'
  · rw [rotateVec_eq, if_neg (by omega), if_neg (by omega)]

/-- With the order of components used by `ph.Model` and `ph.polarization` (`x`, `y` and `z` of the first atom, then of the second
atom ...), the rotation mixes components of different atoms: for a wave vector along `y`, a displacement of the first of two atoms
along `y` is turned into a displacement of the *second* atom. -/
theorem C92_rotate_violated : ∃ (q : ℝ × ℝ) (V : Nat → ℂ), q ≠ (0, 0) ∧ (∀ x, V x = if x = 1 then 1 else 0) ∧
    (∀ x, x < 3 → rotateVec q 2 V x = 0) ∧ rotateVec q 2 V 3 = -1 := by
  refine ⟨(0, 1), fun x => if x = 1 then 1 else 0, by simp, fun _ => rfl, ?_, ?_⟩
  · have harg : arg (⟨0, 1⟩ : ℂ) = Real.pi / 2 := Complex.arg_I
    intro x hx
    rw [rotateVec_eq]
    simp only [harg, Real.cos_pi_div_two, Real.sin_pi_div_two]
    have : x = 0 ∨ x = 1 ∨ x = 2 := by omega
    rcases this with rfl | rfl | rfl <;> simp
  · have harg : arg (⟨0, 1⟩ : ℂ) = Real.pi / 2 := Complex.arg_I
    rw [rotateVec_eq]
    simp only [harg, Real.cos_pi_div_two, Real.sin_pi_div_two]
    simp

/-! ## Examples -/

example : Fixed (gaugeVec ![1, -2, I]) := (C92_gauge (by decide) _).1

/-- The hypotheses of `C92_hermitian` can be met for a matrix that is not diagonal. -/
example : ∃ (A : Matrix (Fin 2) (Fin 2) ℂ) (v : Fin 2 → ℝ) (V : Fin 2 → Fin 2 → ℂ), A.IsHermitian ∧ A 0 1 ≠ 0 ∧
    Eigenpairs A (fun n => (v n : ℂ)) V ∧ OrthoCols V ∧ Monotone v := by
  refine ⟨!![7 / 25, 24 / 25; 24 / 25, -7 / 25], ![-1, 1], ![![3 / 5, 4 / 5], ![-4 / 5, 3 / 5]], ?_, by simp, ?_, ?_, ?_⟩
  · ext i j
    fin_cases i <;> fin_cases j <;> simp [Matrix.conjTranspose, Complex.conj_ofNat]
  · intro n x
    fin_cases n <;> fin_cases x <;> simp [Fin.sum_univ_two] <;> norm_num
  · intro m n
    fin_cases m <;> fin_cases n <;> simp [Fin.sum_univ_two, Complex.conj_ofNat] <;> norm_num
  · intro a b hab
    fin_cases a <;> fin_cases b <;> simp at hab ⊢ <;> norm_num

example : (1, 2) ≠ ((0, 0) : ℝ × ℝ) ∧ 1 < 2 := by constructor <;> simp

end Verif.Bands
