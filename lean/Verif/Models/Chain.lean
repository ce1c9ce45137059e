import Mathlib.Analysis.SpecialFunctions.Trigonometric.Basic
import Mathlib.Analysis.Complex.Trigonometric
import Mathlib.Tactic.LinearCombination

/-!
# Model of `elphmod/models/chain.py` (C58)
-/

namespace Verif.Models.Chain

open Complex (I)

/-- `elphmod/models/chain.py` 35-42 (`hamiltonian`). -/
noncomputable def hamiltonian (t k1 : ℝ) (_ _ : Fin 1) : ℂ := ((-2 * t * Real.cos k1 : ℝ) : ℂ)

/-- `elphmod/models/chain.py` 44-51 (`dynamical_matrix`). -/
noncomputable def dynamicalMatrix (w0 q1 : ℝ) (x y : Fin 3) : ℂ :=
  (((if x = y then 1 else 0) * (w0 ^ 2 * (1 - Real.cos q1)) : ℝ) : ℂ)

/-- `elphmod/models/chain.py` 53-60 (`coupling`). -/
noncomputable def coupling (g0 q1 k1 : ℝ) (x : Fin 3) (_ _ : Fin 1) : ℂ :=
  if x = 0 then I * (g0 : ℂ) * ((Real.sin (k1 + q1) - Real.sin k1 : ℝ) : ℂ) else 0

/-- C58: the Hamiltonian of the chain is Hermitian, periodic, and even. -/
theorem C58_chain_hamiltonian (t k1 : ℝ) (a b : Fin 1) : star (hamiltonian t k1 a b) = hamiltonian t k1 b a ∧
    hamiltonian t (k1 + 2 * Real.pi) a b = hamiltonian t k1 a b ∧ hamiltonian t (-k1) a b = star (hamiltonian t k1 a b) := by
  unfold hamiltonian
  refine ⟨Complex.conj_ofReal _, by rw [Real.cos_add_two_pi], ?_⟩
  rw [Real.cos_neg]
  exact (Complex.conj_ofReal _).symm

/-- C58: the dynamical matrix of the chain is Hermitian, periodic, positive semidefinite, and obeys the acoustic sum rule. -/
theorem C58_chain_dynamical_matrix (w0 q1 : ℝ) (x y : Fin 3) :
    star (dynamicalMatrix w0 q1 x y) = dynamicalMatrix w0 q1 y x ∧
    dynamicalMatrix w0 (q1 + 2 * Real.pi) x y = dynamicalMatrix w0 q1 x y ∧
    dynamicalMatrix w0 (-q1) x y = star (dynamicalMatrix w0 q1 x y) ∧ dynamicalMatrix w0 0 x y = 0 ∧
    ∀ u : Fin 3 → ℂ, 0 ≤ (∑ x, ∑ y, star (u x) * dynamicalMatrix w0 q1 x y * u y).re := by
  refine ⟨?_, ?_, ?_, ?_, fun u => ?_⟩
  · unfold dynamicalMatrix
    rw [show (if y = x then (1 : ℝ) else 0) = if x = y then 1 else 0 from by simp only [eq_comm]]
    exact Complex.conj_ofReal _
  · unfold dynamicalMatrix
    rw [Real.cos_add_two_pi]
  · unfold dynamicalMatrix
    rw [Real.cos_neg]
    exact (Complex.conj_ofReal _).symm
  · unfold dynamicalMatrix
    simp
  · rw [Complex.re_sum]
    refine Finset.sum_nonneg fun x _ => ?_
    have h : ∑ y, star (u x) * dynamicalMatrix w0 q1 x y * u y =
        ((w0 ^ 2 * (1 - Real.cos q1) * Complex.normSq (u x) : ℝ) : ℂ) := by
      unfold dynamicalMatrix
      rw [Finset.sum_eq_single x]
      · rw [if_pos rfl, one_mul]
        have := Complex.mul_conj (u x)
        push_cast
        rw [← this]
        simp only [RCLike.star_def]
        push_cast
        ring
      · intro y _ hy
        rw [if_neg hy.symm]
        simp
      · simp
    rw [h, Complex.ofReal_re]
    have := Real.cos_le_one q1
    have := Complex.normSq_nonneg (u x)
    have : 0 ≤ 1 - Real.cos q1 := by linarith
    positivity

/-- C58: the coupling of the chain obeys `g(q, k) = g(-q, k + q)^dagger`, is periodic in both arguments, and vanishes for
acoustic phonons of infinite wavelength. -/
theorem C58_chain_coupling (g0 q1 k1 : ℝ) (x : Fin 3) (a b : Fin 1) :
    coupling g0 q1 k1 x a b = star (coupling g0 (-q1) (k1 + q1) x b a) ∧
    coupling g0 (q1 + 2 * Real.pi) k1 x a b = coupling g0 q1 k1 x a b ∧
    coupling g0 q1 (k1 + 2 * Real.pi) x a b = coupling g0 q1 k1 x a b ∧ coupling g0 0 k1 x a b = 0 := by
  unfold coupling
  refine ⟨?_, ?_, ?_, ?_⟩
  · split
    · simp only [add_neg_cancel_right, RCLike.star_def, map_mul, Complex.conj_I, Complex.conj_ofReal]
      push_cast
      ring
    · simp
  · rw [← add_assoc, Real.sin_add_two_pi]
  · rw [add_right_comm, Real.sin_add_two_pi, Real.sin_add_two_pi]
  · simp

/-- The coupling does not vanish in general. -/
example : coupling 1 (Real.pi / 2) 0 0 0 0 = I := by
  unfold coupling
  simp

end Verif.Models.Chain
