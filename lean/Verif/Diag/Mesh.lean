import Verif.Diag.Model
import Mathlib.Algebra.BigOperators.Ring.Finset
import Mathlib.Algebra.BigOperators.Field
import Verif.Occ.Step
import Mathlib.Algebra.Order.BigOperators.Group.Finset
import Mathlib.Tactic.FieldSimp
import Mathlib.Tactic.Linarith
import Mathlib.Tactic.LinearCombination
import Mathlib.Tactic.Positivity
import Mathlib.Tactic.NormNum

/-!
# Mesh points and shifted meshes
-/

namespace Verif.Diag

theorem roundEven_int (z : ℤ) : roundEven (z : ℝ) = z := by
  unfold roundEven
  rw [Int.fract_intCast, if_pos (by norm_num), Int.floor_intCast]

/-- Rounding is to a nearest integer. -/
theorem roundEven_near (x : ℝ) : |x - roundEven x| ≤ 1 / 2 := by
  have h1 := Int.fract_nonneg x
  have h2 := Int.fract_lt_one x
  have h3 : x = ⌊x⌋ + Int.fract x := (Int.floor_add_fract x).symm
  unfold roundEven
  split_ifs with h4 h5 h6
  · rw [abs_le]
    constructor <;> linarith
  · push_cast
    rw [abs_le]
    constructor <;> linarith
  · rw [abs_le]
    constructor <;> linarith
  · push_cast
    rw [abs_le]
    constructor <;> linarith

/-- Specification: points of the mesh, up to reciprocal lattice vectors. -/
def OnMesh {n1 n2 n3 : Nat} (q : Fin 3 → ℝ) (j : Mesh n1 n2 n3) : Prop :=
  ∃ z : Fin 3 → ℤ, q 0 = 2 * Real.pi * (((j.1 : ℕ) : ℝ) / n1 + z 0) ∧
    q 1 = 2 * Real.pi * (((j.2.1 : ℕ) : ℝ) / n2 + z 1) ∧ q 2 = 2 * Real.pi * (((j.2.2 : ℕ) : ℝ) / n3 + z 2)

theorem qIndex_mesh (n : Nat) [NeZero n] (j : Fin n) (z : ℤ) :
    qIndex n (2 * Real.pi * (((j : ℕ) : ℝ) / n + z)) = j := by
  unfold qIndex
  have hn : (n : ℝ) ≠ 0 := Nat.cast_ne_zero.2 (NeZero.ne n)
  have hpi := Real.pi_ne_zero
  have h : 2 * Real.pi * (((j : ℕ) : ℝ) / n + z) * (n / (2 * Real.pi)) = (((j : ℕ) + z * n : ℤ) : ℝ) := by
    push_cast
    field_simp
  rw [h, roundEven_int, Int.add_mul_emod_self_right, Int.emod_eq_of_lt (by omega) (by have := j.2; omega)]
  simp

theorem qIndices_mesh {n1 n2 n3 : Nat} [NeZero n1] [NeZero n2] [NeZero n3] (q : Fin 3 → ℝ) (j : Mesh n1 n2 n3)
    (h : OnMesh q j) : qIndices n1 n2 n3 q = ((j.1 : ℕ), (j.2.1 : ℕ), (j.2.2 : ℕ)) := by
  obtain ⟨z, h0, h1, h2⟩ := h
  unfold qIndices
  rw [h0, h1, h2, qIndex_mesh, qIndex_mesh, qIndex_mesh]

section
variable {α : Type} {n1 n2 n3 : Nat} [NeZero n1] [NeZero n2] [NeZero n3]

theorem slice_mesh (a : Mesh n1 n2 n3 → α) (j k : Mesh n1 n2 n3) :
    slice a ((j.1 : ℕ), (j.2.1 : ℕ), (j.2.2 : ℕ)) k = a (k + j) := by
  unfold slice tile
  congr 1
  refine Prod.ext ?_ (Prod.ext ?_ ?_)
  · apply Fin.ext
    simp [Fin.val_add, Fin.ofNat, Nat.add_comm]
  · apply Fin.ext
    simp [Fin.val_add, Fin.ofNat, Nat.add_comm]
  · apply Fin.ext
    simp [Fin.val_add, Fin.ofNat, Nat.add_comm]

theorem slice_q (a : Mesh n1 n2 n3 → α) (q : Fin 3 → ℝ) (j k : Mesh n1 n2 n3) (h : OnMesh q j) :
    slice a (qIndices n1 n2 n3 q) k = a (k + j) := by
  rw [qIndices_mesh q j h, slice_mesh]

/-- A shift of the mesh as by any indices. -/
theorem slice_eq (a : Mesh n1 n2 n3 → α) (q : Nat × Nat × Nat) (k : Mesh n1 n2 n3) :
    slice a q k = a (k + (Fin.ofNat n1 q.1, Fin.ofNat n2 q.2.1, Fin.ofNat n3 q.2.2)) := by
  unfold slice tile
  congr 1
  refine Prod.ext ?_ (Prod.ext ?_ ?_)
  · apply Fin.ext
    simp [Fin.val_add, Fin.ofNat, Nat.add_comm]
  · apply Fin.ext
    simp [Fin.val_add, Fin.ofNat, Nat.add_comm]
  · apply Fin.ext
    simp [Fin.val_add, Fin.ofNat, Nat.add_comm]

theorem sum_shift {M : Type} [AddCommMonoid M] (F : Mesh n1 n2 n3 → M) (j : Mesh n1 n2 n3) :
    ∑ k, F (k + j) = ∑ k, F k := Fintype.sum_equiv (Equiv.addRight j) _ _ fun _ => rfl

end

/-! ### C51 -/

/-- Specification: the formula in the documentation of `susceptibility` for a mesh point `j`. -/
noncomputable def lindhard {n : Nat} [NeZero n] (e : Mesh n n 1 → ℝ) (kT eta : ℝ) (occ : ℝ → ℝ) (j : Mesh n n 1) : ℂ :=
  2 / ((n ^ 2 : ℕ) : ℂ) * ∑ k, ((occ (e (k + j) / kT) - occ (e k / kT) : ℝ) : ℂ) /
    (((e (k + j) - e k : ℝ) : ℂ) + Complex.I * (eta : ℂ))

variable {n : Nat} [NeZero n]

theorem term_re (df de eta : ℝ) :
    ((df : ℂ) / ((de : ℂ) + Complex.I * (eta : ℂ))).re = df * de / (de * de + eta ^ 2) := by
  rw [Complex.div_re]
  simp [Complex.normSq_apply]
  ring

/-- A wave vector in two dimensions. -/
def vec2 (q1 q2 : ℝ) : Fin 3 → ℝ := ![q1, q2, 0]

theorem onMesh_indices (q1 q2 : ℝ) (j : Mesh n n 1) (h : OnMesh (vec2 q1 q2) j) :
    (qIndex n q1, qIndex n q2, 0) = ((j.1 : ℕ), (j.2.1 : ℕ), (j.2.2 : ℕ)) := by
  have := qIndices_mesh _ _ h
  unfold qIndices vec2 at this
  simp only [Prod.mk.injEq] at this
  refine Prod.ext this.1 (Prod.ext this.2.1 ?_)
  have := j.2.2.2
  simp only
  omega

/-- C51: at mesh points other than zero, the real part of the documented formula is returned. -/
theorem C51_value (e : Mesh n n 1 → ℝ) (kT eta : ℝ) (occ delta : ℝ → ℝ) (q1 q2 : ℝ) (j : Mesh n n 1)
    (hq : OnMesh (vec2 q1 q2) j) (hj : j ≠ 0) :
    susceptibility e kT eta occ delta q1 q2 = (lindhard e kT eta occ j).re := by
  have hi := onMesh_indices q1 q2 j hq
  simp only [Prod.mk.injEq] at hi
  unfold susceptibility
  simp only
  rw [if_neg, hi.1, hi.2.1, show (0 : ℕ) = (j.2.2 : ℕ) from hi.2.2]
  · simp only [slice_mesh]
    unfold lindhard
    rw [show (2 / ((n ^ 2 : ℕ) : ℂ)) = ((2 / (n : ℝ) ^ 2 : ℝ) : ℂ) by push_cast; rfl, Complex.re_ofReal_mul,
      Complex.re_sum]
    congr 1
    refine Finset.sum_congr rfl fun k _ => ?_
    rw [term_re]
  · rintro ⟨h1, h2⟩
    apply hj
    refine Prod.ext (Fin.ext ?_) (Prod.ext (Fin.ext ?_) (Fin.ext ?_))
    · rw [← hi.1, h1]
      rfl
    · rw [← hi.2.1, h2]
      rfl
    · rw [← hi.2.2]
      rfl

/-- C51: at reciprocal lattice vectors, the limit of small energy differences (minus the density of states) is
returned. -/
theorem C51_zero (e : Mesh n n 1 → ℝ) (kT eta : ℝ) (occ delta : ℝ → ℝ) (q1 q2 : ℝ)
    (hq : OnMesh (vec2 q1 q2) (0 : Mesh n n 1)) :
    susceptibility e kT eta occ delta q1 q2 = - (2 / (n : ℝ) ^ 2 * ∑ k, delta (e k / kT) / kT) := by
  have hi := onMesh_indices q1 q2 0 hq
  simp only [Prod.mk.injEq] at hi
  unfold susceptibility
  simp only
  rw [if_pos ⟨hi.1, hi.2.1⟩, Finset.sum_div]
  ring

/-- C51: the susceptibility is periodic. -/
theorem C51_periodic (e : Mesh n n 1 → ℝ) (kT eta : ℝ) (occ delta : ℝ → ℝ) (q1 q2 p1 p2 : ℝ) (j : Mesh n n 1)
    (hq : OnMesh (vec2 q1 q2) j) (hp : OnMesh (vec2 p1 p2) j) :
    susceptibility e kT eta occ delta q1 q2 = susceptibility e kT eta occ delta p1 p2 := by
  have h1 := onMesh_indices q1 q2 j hq
  have h2 := onMesh_indices p1 p2 j hp
  simp only [Prod.mk.injEq] at h1 h2
  unfold susceptibility
  simp only
  rw [h1.1, h1.2.1, h2.1, h2.2.1]

theorem onMesh_neg (q1 q2 : ℝ) (j : Mesh n n 1) (h : OnMesh (vec2 q1 q2) j) : OnMesh (vec2 (-q1) (-q2)) (-j) := by
  have key : ∀ (i : Fin n) (z : ℤ), ∃ w : ℤ, -(2 * Real.pi * (((i : ℕ) : ℝ) / n + z)) =
      2 * Real.pi * ((((-i : Fin n) : ℕ) : ℝ) / n + w) := by
    intro i z
    have hn : (n : ℝ) ≠ 0 := Nat.cast_ne_zero.2 (NeZero.ne n)
    by_cases hi : i = 0
    · refine ⟨-z, ?_⟩
      rw [hi]
      simp
    · refine ⟨-z - 1, ?_⟩
      have hv : ((-i : Fin n) : ℕ) = n - i := by
        rw [Fin.val_neg']
        have : (i : ℕ) ≠ 0 := fun h => hi (Fin.ext (by rw [h]; rfl))
        have := i.2
        exact Nat.mod_eq_of_lt (by omega)
      rw [hv, Nat.cast_sub i.2.le]
      push_cast
      field_simp
      ring
  obtain ⟨z, h0, h1, h2⟩ := h
  obtain ⟨w0, hw0⟩ := key j.1 (z 0)
  obtain ⟨w1, hw1⟩ := key j.2.1 (z 1)
  refine ⟨![w0, w1, 0], ?_, ?_, ?_⟩
  · rw [← h0] at hw0
    exact hw0
  · rw [← h1] at hw1
    exact hw1
  · have : ((-j).2.2 : ℕ) = 0 := by
      have := (-j).2.2.2
      omega
    simp [vec2, this]

/-- C51: the susceptibility is even. -/
theorem C51_even (e : Mesh n n 1 → ℝ) (kT eta : ℝ) (occ delta : ℝ → ℝ) (q1 q2 : ℝ) (j : Mesh n n 1)
    (hq : OnMesh (vec2 q1 q2) j) :
    susceptibility e kT eta occ delta (-q1) (-q2) = susceptibility e kT eta occ delta q1 q2 := by
  have hm := onMesh_neg q1 q2 j hq
  by_cases hj : j = 0
  · subst hj
    rw [neg_zero] at hm
    rw [C51_zero e kT eta occ delta _ _ hq, C51_zero e kT eta occ delta _ _ hm]
  · rw [C51_value e kT eta occ delta _ _ _ hq hj, C51_value e kT eta occ delta _ _ _ hm (neg_ne_zero.2 hj)]
    unfold lindhard
    rw [show (2 / ((n ^ 2 : ℕ) : ℂ)) = ((2 / (n : ℝ) ^ 2 : ℝ) : ℂ) by push_cast; rfl, Complex.re_ofReal_mul,
      Complex.re_ofReal_mul, Complex.re_sum, Complex.re_sum]
    congr 1
    rw [← sum_shift _ j]
    refine Finset.sum_congr rfl fun k _ => ?_
    rw [term_re, term_re, add_neg_cancel_right]
    congr 1
    · ring
    · ring

/-- C51: the susceptibility is not positive, whatever the wave vector, if the occupation function decreases. -/
theorem C51_nonpos (e : Mesh n n 1 → ℝ) (kT eta : ℝ) (hkT : 0 < kT) (occ delta : ℝ → ℝ) (ho : Antitone occ)
    (hd : ∀ x, 0 ≤ delta x) (q1 q2 : ℝ) : susceptibility e kT eta occ delta q1 q2 ≤ 0 := by
  have hp : (0 : ℝ) ≤ 2 / (n : ℝ) ^ 2 := by positivity
  unfold susceptibility
  simp only
  split
  · apply mul_nonpos_of_nonneg_of_nonpos hp
    rw [neg_nonpos]
    exact div_nonneg (Finset.sum_nonneg fun k _ => hd _) hkT.le
  · apply mul_nonpos_of_nonneg_of_nonpos hp
    apply Finset.sum_nonpos
    intro k _
    apply div_nonpos_of_nonpos_of_nonneg
    · rw [slice_eq, slice_eq]
      generalize e (k + _) = e'
      rcases le_total e' (e k) with h | h
      · have := ho (div_le_div_of_nonneg_right h hkT.le)
        exact mul_nonpos_of_nonneg_of_nonpos (by linarith) (by linarith)
      · have := ho (div_le_div_of_nonneg_right h hkT.le)
        exact mul_nonpos_of_nonpos_of_nonneg (by linarith) (by linarith)
    · exact add_nonneg (mul_self_nonneg _) (sq_nonneg _)

/-- Gaussian smearing, any dispersion. -/
example (e : Mesh 12 12 1 → ℝ) (q1 q2 : ℝ) :
    susceptibility e 0.025 1e-10 Verif.Occ.gauss Verif.Occ.gaussDelta q1 q2 ≤ 0 :=
  C51_nonpos e _ _ (by norm_num) _ _ Verif.Occ.C35_gauss.anti.antitone (fun x => (Verif.Occ.gaussDelta_pos x).le) q1 q2

example : OnMesh (vec2 (-2 * Real.pi / 3) (8 * Real.pi / 3)) ((2, 1, 0) : Mesh 3 3 1) := by
  refine ⟨![-1, 1, 0], ?_, ?_, ?_⟩
  · simp [vec2]
    ring
  · simp [vec2]
    ring
  · simp [vec2]

end Verif.Diag
