import Verif.Models.Graphene
import Verif.Fourier.Check

/-!
# Rigid rotations of graphene (C58)

The spring constants between next-nearest neighbors in `elphmod/models/graphene.py` 67-71 are not free parameters: they are chosen such that rigid
rotations do not cost any energy. As a consequence, the frequency of flexural modes depends on the square of the wave vector.
-/

namespace Verif.Models.Graphene

open Verif.Fourier (hex)

/-! ### Specification -/

/-- Vector product, i.e., displacement of a point upon an infinitesimal rotation. -/
def turn (w v : Fin 3 → ℝ) : Fin 3 → ℝ := ![w 1 * v 2 - w 2 * v 1, w 2 * v 0 - w 0 * v 2, w 0 * v 1 - w 1 * v 0]

/-- Energy of a spring with a given relative displacement of the ends. -/
noncomputable def springEnergy (K : Fin 3 → Fin 3 → ℝ) (u : Fin 3 → ℝ) : ℝ := -(∑ x, ∑ y, u x * K x y * u y) / 2

/-- Vectors between next-nearest neighbors. -/
def second (at_ : Fin 3 → Fin 3 → ℝ) (n : Fin 3) (x : Fin 3) : ℝ := ![at_ 0 x, at_ 1 x, -(at_ 0 x + at_ 1 x)] n

/-- Position of atoms in crystal coordinates times wave vector. -/
noncomputable def atomPhase (q1 q2 : ℝ) (i : Fin 2) : ℝ := ![(2 * q1 + q2) / 3, (q1 + 2 * q2) / 3] i

/-- Twice the energy per cell of a wave in a given direction with the same amplitude on both atoms. -/
noncomputable def waveEnergy (D : Fin 2 → Fin 2 → ℂ) (q1 q2 : ℝ) : ℂ :=
  ∑ i, ∑ j, cis (atomPhase q1 q2 i) * D i j * cis (-atomPhase q1 q2 j)

/-! ### Angles -/

theorem cos30 : Real.cos (30 * (Real.pi / 180)) = √3 / 2 := by
  rw [show 30 * (Real.pi / 180) = Real.pi / 6 by ring, Real.cos_pi_div_six]

theorem sin30 : Real.sin (30 * (Real.pi / 180)) = 1 / 2 := by
  rw [show 30 * (Real.pi / 180) = Real.pi / 6 by ring, Real.sin_pi_div_six]

theorem cos150 : Real.cos (150 * (Real.pi / 180)) = -(√3 / 2) := by
  rw [show 150 * (Real.pi / 180) = Real.pi - Real.pi / 6 by ring, Real.cos_pi_sub, Real.cos_pi_div_six]

theorem sin150 : Real.sin (150 * (Real.pi / 180)) = 1 / 2 := by
  rw [show 150 * (Real.pi / 180) = Real.pi - Real.pi / 6 by ring, Real.sin_pi_sub, Real.sin_pi_div_six]

theorem cos270 : Real.cos (270 * (Real.pi / 180)) = 0 := by
  rw [show 270 * (Real.pi / 180) = Real.pi / 2 + Real.pi by ring, Real.cos_add_pi, Real.cos_pi_div_two, neg_zero]

theorem sin270 : Real.sin (270 * (Real.pi / 180)) = -1 := by
  rw [show 270 * (Real.pi / 180) = Real.pi / 2 + Real.pi by ring, Real.sin_add_pi, Real.sin_pi_div_two]

theorem cos120 : Real.cos (120 * (Real.pi / 180)) = -(1 / 2) := by
  rw [show 120 * (Real.pi / 180) = Real.pi - Real.pi / 3 by ring, Real.cos_pi_sub, Real.cos_pi_div_three]

theorem sin120 : Real.sin (120 * (Real.pi / 180)) = √3 / 2 := by
  rw [show 120 * (Real.pi / 180) = Real.pi - Real.pi / 3 by ring, Real.sin_pi_sub, Real.sin_pi_div_three]

theorem cos240 : Real.cos (240 * (Real.pi / 180)) = -(1 / 2) := by
  rw [show 240 * (Real.pi / 180) = Real.pi / 3 + Real.pi by ring, Real.cos_add_pi, Real.cos_pi_div_three]

theorem sin240 : Real.sin (240 * (Real.pi / 180)) = -(√3 / 2) := by
  rw [show 240 * (Real.pi / 180) = Real.pi / 3 + Real.pi by ring, Real.sin_add_pi, Real.sin_pi_div_three]

/-! ### Theorems -/

/-- C58: rigid infinitesimal rotations of graphene about arbitrary axes do not cost any energy. There are three bonds per cell between nearest
neighbors, and three between next-nearest neighbors for each of the two sublattices. -/
theorem C58_graphene_rigid (a c : ℝ) (C : Fin 3 → ℝ) (w : Fin 3 → ℝ) :
    ∑ n : Fin 3, springEnergy (springK C (![1, 0, 2] n)) (turn w (bond (hex a c) n)) +
      2 * ∑ n : Fin 3, springEnergy (springL C n) (turn w (second (hex a c) n)) = 0 := by
  have h : √3 ^ 2 = 3 := Real.sq_sqrt (by norm_num)
  simp only [Fin.sum_univ_three, springEnergy, springK, springL, rotate_apply, Matrix.diagonal, Matrix.of_apply, Matrix.cons_val, cos30, sin30,
    cos150, sin150, cos270, sin270, cos120, sin120, cos240, sin240, turn, bond, second, hex, zero_mul, Real.cos_zero, Real.sin_zero]
  simp
  generalize √3 = r at *
  have h4 : r ^ 4 = 9 := by
    rw [show r ^ 4 = (r ^ 2) ^ 2 by ring, h]
    norm_num
  ring_nf
  simp only [h, h4]
  ring

theorem cis_add_conj (x : ℝ) : cis x + cis (-x) = ((2 * Real.cos x : ℝ) : ℂ) := by
  unfold cis
  rw [mul_comm Complex.I, mul_comm Complex.I, Complex.exp_mul_I, Complex.exp_mul_I]
  push_cast
  rw [Complex.cos_neg, Complex.sin_neg]
  ring

theorem zzK (C : Fin 3 → ℝ) (n : Fin 3) : springK C n 2 2 = C 2 := by
  unfold springK
  rw [rotate_apply]
  simp [Matrix.diagonal, Fin.sum_univ_three]

theorem zzL (C : Fin 3 → ℝ) (n : Fin 3) : springL C n 2 2 = -C 2 / 6 := by
  unfold springL
  rw [rotate_apply]
  simp [Matrix.diagonal, Fin.sum_univ_three]

theorem wave_value (C : Fin 3 → ℝ) (M q1 q2 : ℝ) : waveEnergy (fun i j => dynamicalMatrix C M q1 q2 (i, 2) (j, 2)) q1 q2 =
    ((2 * (C 2 / M) * (Real.cos ((2 * q1 + q2) / 3) + Real.cos ((q2 - q1) / 3) + Real.cos ((q1 + 2 * q2) / 3) - 2 -
      (Real.cos q1 + Real.cos q2 + Real.cos (q1 + q2)) / 3) : ℝ) : ℂ) := by
  have c1 := cis_add_conj q1
  have c2 := cis_add_conj q2
  have c3 := cis_add_conj (q1 + q2)
  have c4 := cis_add_conj ((2 * q1 + q2) / 3)
  have c5 := cis_add_conj ((q2 - q1) / 3)
  have c6 := cis_add_conj ((q1 + 2 * q2) / 3)
  have m : ∀ x y z : ℝ, cis x * cis y * cis z = cis (x + y + z) := fun x y z => by rw [cis_add, cis_add]
  have m2 : ∀ x y : ℝ, cis x * cis y = cis (x + y) := fun x y => by rw [cis_add]
  have a1 : cis (atomPhase q1 q2 0) * cis (-atomPhase q1 q2 0) = 1 := by rw [m2, add_neg_cancel]; simp [cis]
  have a2 : cis (atomPhase q1 q2 1) * cis (-atomPhase q1 q2 1) = 1 := by rw [m2, add_neg_cancel]; simp [cis]
  have b1 : cis (atomPhase q1 q2 1) * cis q1 * cis (-atomPhase q1 q2 0) = cis ((2 * q1 + q2) / 3) := by
    rw [m]; congr 1; simp only [atomPhase, Matrix.cons_val]; ring
  have b2 : cis (atomPhase q1 q2 1) * cis (-atomPhase q1 q2 0) = cis ((q2 - q1) / 3) := by
    rw [m2]; congr 1; simp only [atomPhase, Matrix.cons_val]; ring
  have b3 : cis (atomPhase q1 q2 1) * cis (-q2) * cis (-atomPhase q1 q2 0) = cis (-((q1 + 2 * q2) / 3)) := by
    rw [m]; congr 1; simp only [atomPhase, Matrix.cons_val]; ring
  have b4 : cis (atomPhase q1 q2 0) * cis (-q1) * cis (-atomPhase q1 q2 1) = cis (-((2 * q1 + q2) / 3)) := by
    rw [m]; congr 1; simp only [atomPhase, Matrix.cons_val]; ring
  have b5 : cis (atomPhase q1 q2 0) * cis (-atomPhase q1 q2 1) = cis (-((q2 - q1) / 3)) := by
    rw [m2]; congr 1; simp only [atomPhase, Matrix.cons_val]; ring
  have b6 : cis (atomPhase q1 q2 0) * cis q2 * cis (-atomPhase q1 q2 1) = cis ((q1 + 2 * q2) / 3) := by
    rw [m]; congr 1; simp only [atomPhase, Matrix.cons_val]; ring
  unfold waveEnergy
  simp only [Fin.sum_univ_two, dynamicalMatrix, blockL, blockK, zzK, zzL, map_add, map_sub, map_mul, cis_conj, Complex.conj_ofReal, neg_neg]
  push_cast
  push_cast at c1 c2 c3 c4 c5 c6
  generalize cis (atomPhase q1 q2 0) = p0 at *
  generalize cis (atomPhase q1 q2 1) = p1 at *
  generalize cis (-atomPhase q1 q2 0) = n0 at *
  generalize cis (-atomPhase q1 q2 1) = n1 at *
  generalize (C 2 : ℂ) = K at *
  generalize (M : ℂ) = M' at *
  linear_combination (-K / 6 * (cis q1 + cis q2 + cis (-(q1 + q2))) + -K / 6 * (cis (-q1) + cis (-q2) + cis (q1 + q2)) - 2 * K) / M' * (a1 + a2) + K / M' * (b1 + b2 + b3 + b4 + b5 + b6) +
    K / M' * (c4 + c5 + c6) - K / (3 * M') * (c1 + c2 + c3)

/-- C58: flexural modes of graphene soften quadratically: the energy of long waves is of fourth order in the wave vector. -/
theorem C58_graphene_flexural (C : Fin 3 → ℝ) (M q1 q2 : ℝ) (h1 : |q1| ≤ 1 / 2) (h2 : |q2| ≤ 1 / 2) :
    ‖waveEnergy (fun i j => dynamicalMatrix C M q1 q2 (i, 2) (j, 2)) q1 q2‖ ≤ |C 2 / M| * (q1 ^ 2 + q1 * q2 + q2 ^ 2) ^ 2 / 10 := by
  rw [wave_value, Complex.norm_real, Real.norm_eq_abs, abs_mul, abs_mul, abs_of_pos (by norm_num : (0 : ℝ) < 2)]
  rw [abs_le] at h1 h2
  have cb : ∀ x : ℝ, -1 ≤ x → x ≤ 1 → |Real.cos x - (1 - x ^ 2 / 2)| ≤ x ^ 4 * (5 / 96) := fun x hx hx' => by
    have := Real.cos_bound (abs_le.2 ⟨hx, hx'⟩)
    rwa [Even.pow_abs (by decide)] at this
  have k1 := abs_le.1 (cb q1 (by linarith) (by linarith))
  have k2 := abs_le.1 (cb q2 (by linarith) (by linarith))
  have k3 := abs_le.1 (cb (q1 + q2) (by linarith) (by linarith))
  have k4 := abs_le.1 (cb ((2 * q1 + q2) / 3) (by linarith) (by linarith))
  have k5 := abs_le.1 (cb ((q2 - q1) / 3) (by linarith) (by linarith))
  have k6 := abs_le.1 (cb ((q1 + 2 * q2) / 3) (by linarith) (by linarith))
  have key : |Real.cos ((2 * q1 + q2) / 3) + Real.cos ((q2 - q1) / 3) + Real.cos ((q1 + 2 * q2) / 3) - 2 -
      (Real.cos q1 + Real.cos q2 + Real.cos (q1 + q2)) / 3| ≤ (q1 ^ 2 + q1 * q2 + q2 ^ 2) ^ 2 / 20 := by
    rw [abs_le]
    have e1 : ((2 * q1 + q2) / 3) ^ 2 + ((q2 - q1) / 3) ^ 2 + ((q1 + 2 * q2) / 3) ^ 2 = (q1 ^ 2 + q2 ^ 2 + (q1 + q2) ^ 2) / 3 := by ring
    have e2 : ((2 * q1 + q2) / 3) ^ 4 + ((q2 - q1) / 3) ^ 4 + ((q1 + 2 * q2) / 3) ^ 4 + (q1 ^ 4 + q2 ^ 4 + (q1 + q2) ^ 4) / 3 =
        8 / 9 * (q1 ^ 2 + q1 * q2 + q2 ^ 2) ^ 2 := by ring
    have e3 := sq_nonneg (q1 ^ 2 + q1 * q2 + q2 ^ 2)
    constructor <;> linarith [k1.1, k1.2, k2.1, k2.2, k3.1, k3.2, k4.1, k4.2, k5.1, k5.2, k6.1, k6.2]
  have := mul_le_mul_of_nonneg_left key (abs_nonneg (C 2 / M))
  linarith

/-- Rotation about an axis in the plane with different spring constants in all directions. -/
example : ∑ n : Fin 3, springEnergy (springK ![-0.3, -0.2, -0.1] (![1, 0, 2] n)) (turn ![1, 2, 3] (bond (hex 4.65 30) n)) +
    2 * ∑ n : Fin 3, springEnergy (springL ![-0.3, -0.2, -0.1] n) (turn ![1, 2, 3] (second (hex 4.65 30) n)) = 0 :=
  C58_graphene_rigid _ _ _ _

example : ‖waveEnergy (fun i j => dynamicalMatrix ![-0.3, -0.2, -0.1] 12 0.1 0.2 (i, 2) (j, 2)) 0.1 0.2‖ ≤ |(-0.1 : ℝ) / 12| * 0.07 ^ 2 / 10 := by
  have := C58_graphene_flexural ![-0.3, -0.2, -0.1] 12 0.1 0.2 (by norm_num [abs_of_pos]) (by norm_num [abs_of_pos])
  simp only [Matrix.cons_val] at this
  rwa [show (0.1 : ℝ) ^ 2 + 0.1 * 0.2 + 0.2 ^ 2 = 0.07 by norm_num] at this

end Verif.Models.Graphene
