import Verif.Bravais.Props
import Mathlib.Analysis.Complex.Exponential
import Mathlib.Analysis.SpecialFunctions.Trigonometric.Basic
import Mathlib.Analysis.SpecialFunctions.Complex.Circle
import Mathlib.Data.Complex.BigOperators

/-!
# Hartree energy: `hartree_energy` of `elphmod/elel.py` and `read_rhoG_density` of `elphmod/el.py`

Exact arithmetic. The binary format is treated in `Text/Binary.lean`.
-/

namespace Verif.ElEl

open Verif.Bravais

/-- `elphmod/elel.py` 584-601 (`hartree_energy`). The square of `np.linalg.norm` is the sum of squares. -/
noncomputable def hartreeEnergy (a0 : ℝ) (rho : Nat → ℂ) (G : Nat → R3) (ngm : Nat) (vol a : ℝ) : ℝ :=
  let ehart := (List.range' 1 (ngm - 1)).foldl (fun ehart ig =>
    let fac := 1 / dot3 (G ig) (G ig)
    ehart + ((rho ig).re ^ 2 + (rho ig).im ^ 2) * fac) 0
  let e2 := 2
  let fpi := 4 * Real.pi
  let tpiba2 := (2 * Real.pi / (a / a0)) ^ 2
  let fac := e2 * fpi / tpiba2
  ehart * fac * (1 / 2) * vol

/-- `elphmod/el.py` 1895-1905: lattice vectors (rows of `A`) in units of the lattice constant. -/
noncomputable def perAlat (A : Fin 3 → R3) (a : ℝ) : Fin 3 → R3 := fun i x => A i x / a

/-- `elphmod/el.py` 1903-1904. -/
noncomputable def cellVolume (a0 : ℝ) (A : Fin 3 → R3) (a : ℝ) : ℝ :=
  (Matrix.of (perAlat A a)).det * (a / a0) ^ 3

/-- `elphmod/el.py` 1900, 1906-1910: reciprocal lattice vectors in units of `2 pi / a`. -/
noncomputable def gVectors (A : Fin 3 → R3) (a : ℝ) (m : Nat → Fin 3 → ℤ) (ig : Nat) : R3 :=
  let B := reciprocals3 (perAlat A a 0) (perAlat A a 1) (perAlat A a 2)
  fun x => m ig 0 * B.1 x + m ig 1 * B.2.1 x + m ig 2 * B.2.2 x

/-! ### Specification -/

/-- Electrostatic energy in Rydberg units (`e² = 2`) of a periodic charge density in a neutralizing background: half the
integral of density times potential `8 pi rho(G) / G²`, given the volume and the reciprocal vectors in atomic units. -/
noncomputable def electrostatic (rho : Nat → ℂ) (G : Nat → R3) (ngm : Nat) (vol : ℝ) : ℝ :=
  vol / 2 * ∑ ig ∈ Finset.Ico 1 ngm, (star (rho ig) * (8 * Real.pi * rho ig / (dot3 (G ig) (G ig) : ℝ))).re

theorem foldl_sum (f : Nat → ℝ) (l : List Nat) (s : ℝ) : l.foldl (fun s i => s + f i) s = s + (l.map f).sum := by
  induction l generalizing s with
  | nil => simp
  | cons a l ih => rw [List.foldl_cons, ih, List.map_cons, List.sum_cons, add_assoc]

theorem sum_Ico_list (f : Nat → ℝ) (n : Nat) : ∑ i ∈ Finset.Ico 1 n, f i = ((List.range' 1 (n - 1)).map f).sum := by
  rw [Finset.sum_Ico_eq_sum_range, List.range'_eq_map_range, List.map_map]
  induction n - 1 with
  | zero => simp
  | succ m ih => rw [Finset.sum_range_succ, ih, List.range_succ, List.map_append, List.sum_append]; simp

theorem hartreeEnergy_eq (a0 : ℝ) (rho : Nat → ℂ) (G : Nat → R3) (ngm : Nat) (vol a : ℝ) :
    hartreeEnergy a0 rho G ngm vol a = (∑ ig ∈ Finset.Ico 1 ngm, ‖rho ig‖ ^ 2 / dot3 (G ig) (G ig)) *
      (8 * Real.pi / (2 * Real.pi / (a / a0)) ^ 2) * (1 / 2) * vol := by
  unfold hartreeEnergy
  simp only
  rw [foldl_sum (fun ig => ((rho ig).re ^ 2 + (rho ig).im ^ 2) * (1 / dot3 (G ig) (G ig))), zero_add, ← sum_Ico_list]
  have e : ∀ ig, ((rho ig).re ^ 2 + (rho ig).im ^ 2) * (1 / dot3 (G ig) (G ig)) = ‖rho ig‖ ^ 2 / dot3 (G ig) (G ig) := by
    intro ig
    rw [Complex.sq_norm, Complex.normSq_apply]
    ring
  simp only [e]
  ring

theorem dot3_self_nonneg (u : R3) : 0 ≤ dot3 u u := by
  unfold dot3
  nlinarith [mul_self_nonneg (u 0), mul_self_nonneg (u 1), mul_self_nonneg (u 2)]

theorem dot3_self_eq_zero (u : R3) (h : dot3 u u = 0) : u = 0 := by
  unfold dot3 at h
  have h0 := mul_self_nonneg (u 0)
  have h1 := mul_self_nonneg (u 1)
  have h2 := mul_self_nonneg (u 2)
  funext i
  fin_cases i
  · exact mul_self_eq_zero.1 (by show u 0 * u 0 = 0; linarith)
  · exact mul_self_eq_zero.1 (by show u 1 * u 1 = 0; linarith)
  · exact mul_self_eq_zero.1 (by show u 2 * u 2 = 0; linarith)

/-- C118: the energy is not negative. -/
theorem C118_nonneg (a0 : ℝ) (rho : Nat → ℂ) (G : Nat → R3) (ngm : Nat) (vol a : ℝ) (hv : 0 ≤ vol) :
    0 ≤ hartreeEnergy a0 rho G ngm vol a := by
  rw [hartreeEnergy_eq]
  have h : 0 ≤ ∑ ig ∈ Finset.Ico 1 ngm, ‖rho ig‖ ^ 2 / dot3 (G ig) (G ig) :=
    Finset.sum_nonneg fun ig _ => div_nonneg (sq_nonneg _) (dot3_self_nonneg _)
  have hpi := Real.pi_pos
  positivity

/-- C118: the energy vanishes for uniform densities only. -/
theorem C118_uniform (a0 : ℝ) (ha0 : a0 ≠ 0) (rho : Nat → ℂ) (G : Nat → R3) (ngm : Nat) (vol a : ℝ) (hv : vol ≠ 0) (ha : a ≠ 0)
    (hG : ∀ ig, 1 ≤ ig → ig < ngm → G ig ≠ 0) :
    hartreeEnergy a0 rho G ngm vol a = 0 ↔ ∀ ig, 1 ≤ ig → ig < ngm → rho ig = 0 := by
  rw [hartreeEnergy_eq]
  have hpi := Real.pi_ne_zero
  have hf : (8 * Real.pi / (2 * Real.pi / (a / a0)) ^ 2) * (1 / 2) * vol ≠ 0 := by
    refine mul_ne_zero (mul_ne_zero (div_ne_zero (by positivity) (pow_ne_zero _ (div_ne_zero (by positivity) (div_ne_zero ha ha0)))) ?_) hv
    norm_num
  rw [mul_assoc, mul_assoc, mul_eq_zero_iff_right (by rw [← mul_assoc]; exact hf),
    Finset.sum_eq_zero_iff_of_nonneg fun ig _ => div_nonneg (sq_nonneg _) (dot3_self_nonneg _)]
  constructor
  · intro h ig h1 h2
    have := h ig (Finset.mem_Ico.2 ⟨h1, h2⟩)
    rw [div_eq_zero_iff] at this
    rcases this with h3 | h3
    · exact norm_eq_zero.1 (pow_eq_zero_iff two_ne_zero |>.1 h3)
    · exact absurd (dot3_self_eq_zero _ h3) (hG ig h1 h2)
  · intro h ig hi
    rw [h ig (Finset.mem_Ico.1 hi).1 (Finset.mem_Ico.1 hi).2]
    simp

/-- C118: the number of electrons (the component `G = 0`, which must come first) does not matter. -/
theorem C118_background (a0 : ℝ) (rho : Nat → ℂ) (z : ℂ) (G : Nat → R3) (ngm : Nat) (vol a : ℝ) :
    hartreeEnergy a0 (Function.update rho 0 z) G ngm vol a = hartreeEnergy a0 rho G ngm vol a := by
  rw [hartreeEnergy_eq, hartreeEnergy_eq]
  congr 3
  refine Finset.sum_congr rfl fun ig h => ?_
  rw [Function.update_of_ne (by have := (Finset.mem_Ico.1 h).1; omega)]

/-- C118: the energy does not change if the density is moved by a vector `t`. -/
theorem C118_translation (a0 : ℝ) (rho : Nat → ℂ) (t : R3) (G : Nat → R3) (ngm : Nat) (vol a : ℝ) :
    hartreeEnergy a0 (fun ig => rho ig * Complex.exp (Complex.I * (-dot3 (G ig) t : ℝ))) G ngm vol a = hartreeEnergy a0 rho G ngm vol a := by
  rw [hartreeEnergy_eq, hartreeEnergy_eq]
  congr 3
  refine Finset.sum_congr rfl fun ig _ => ?_
  rw [norm_mul, mul_comm Complex.I, Complex.norm_exp_ofReal_mul_I, mul_one]

/-- C118: rotations of space (matrices that leave scalar products unchanged) do not matter. -/
theorem C118_rotation (a0 : ℝ) (rho : Nat → ℂ) (R : R3 → R3) (hR : ∀ u v, dot3 (R u) (R v) = dot3 u v) (G : Nat → R3) (ngm : Nat)
    (vol a : ℝ) : hartreeEnergy a0 rho (fun ig => R (G ig)) ngm vol a = hartreeEnergy a0 rho G ngm vol a := by
  rw [hartreeEnergy_eq, hartreeEnergy_eq]
  simp only [hR]

/-- C118: the energy is a quadratic form. -/
theorem C118_quadratic (a0 : ℝ) (rho sigma : Nat → ℂ) (c : ℂ) (G : Nat → R3) (ngm : Nat) (vol a : ℝ) :
    hartreeEnergy a0 (fun ig => c * rho ig) G ngm vol a = ‖c‖ ^ 2 * hartreeEnergy a0 rho G ngm vol a ∧
    hartreeEnergy a0 (fun ig => rho ig + sigma ig) G ngm vol a + hartreeEnergy a0 (fun ig => rho ig - sigma ig) G ngm vol a =
      2 * hartreeEnergy a0 rho G ngm vol a + 2 * hartreeEnergy a0 sigma G ngm vol a := by
  simp only [hartreeEnergy_eq]
  constructor
  · rw [← mul_assoc, ← mul_assoc, ← mul_assoc, Finset.mul_sum]
    congr 3
    refine Finset.sum_congr rfl fun ig _ => ?_
    rw [norm_mul, mul_pow]
    ring
  · rw [← add_mul, ← add_mul, ← add_mul, ← Finset.sum_add_distrib, ← mul_assoc, ← mul_assoc, ← mul_assoc, ← mul_assoc, ← mul_assoc,
      ← mul_assoc, ← add_mul, ← add_mul, ← add_mul, Finset.mul_sum, Finset.mul_sum, ← Finset.sum_add_distrib]
    congr 3
    refine Finset.sum_congr rfl fun ig _ => ?_
    rw [← add_div, ← mul_div_assoc, ← mul_div_assoc, ← add_div]
    congr 1
    simp only [Complex.sq_norm, Complex.normSq_apply, Complex.add_re, Complex.add_im, Complex.sub_re, Complex.sub_im]
    ring

/-- Gram matrix of vectors dual to a basis. -/
theorem dual_expansion (A : Fin 3 → R3) (h : dot3 (A 0) (cross (A 1) (A 2)) ≠ 0) (m : Fin 3 → ℝ) (u : R3) (hu : ∀ i, dot3 u (A i) = m i) :
    u = fun x => m 0 * (reciprocals3 (A 0) (A 1) (A 2)).1 x + m 1 * (reciprocals3 (A 0) (A 1) (A 2)).2.1 x +
      m 2 * (reciprocals3 (A 0) (A 1) (A 2)).2.2 x := by
  have h2 : dot3 (A 1) (cross (A 2) (A 0)) = dot3 (A 0) (cross (A 1) (A 2)) := by
    simp [dot3, cross]; ring
  have h3 : dot3 (A 2) (cross (A 0) (A 1)) = dot3 (A 0) (cross (A 1) (A 2)) := by
    simp [dot3, cross]; ring
  funext x
  simp only [reciprocals3, h2, h3]
  rw [← hu 0, ← hu 1, ← hu 2]
  set V := dot3 (A 0) (cross (A 1) (A 2)) with hV
  rw [mul_div_assoc', mul_div_assoc', mul_div_assoc', ← add_div, ← add_div, eq_div_iff h, hV]
  fin_cases x <;> simp [dot3, cross] <;> ring

/-- C118: with volume and reciprocal vectors as determined from the cell, the result is the electrostatic energy in Rydberg.
The reciprocal vectors of the specification are those with `G · a_i = 2 pi m_i`, where `a_i` are the lattice vectors in units of
the Bohr radius; `m` are the Miller indices from the file. -/
theorem C118_energy (a0 : ℝ) (h0 : 0 < a0) (A : Fin 3 → R3) (hA : 0 < dot3 (A 0) (cross (A 1) (A 2))) (a : ℝ) (ha : 0 < a)
    (rho : Nat → ℂ) (m : Nat → Fin 3 → ℤ) (ngm : Nat) (G : Nat → R3)
    (hG : ∀ ig i, dot3 (G ig) (fun x => A i x / a0) = 2 * Real.pi * m ig i) :
    hartreeEnergy a0 rho (gVectors A a m) ngm (cellVolume a0 A a) a =
      electrostatic rho G ngm (volume (fun x => A 0 x / a0) (fun x => A 1 x / a0) fun x => A 2 x / a0) := by
  have hpi := Real.pi_ne_zero
  have hp : dot3 (perAlat A a 0) (cross (perAlat A a 1) (perAlat A a 2)) = dot3 (A 0) (cross (A 1) (A 2)) / a ^ 3 := by
    simp only [perAlat, dot3, cross, Matrix.cons_val_zero, Matrix.cons_val_one, Matrix.cons_val]
    field_simp
  have hp0 : dot3 (perAlat A a 0) (cross (perAlat A a 1) (perAlat A a 2)) ≠ 0 := by
    rw [hp]
    positivity
  have hvol : cellVolume a0 A a = volume (fun x => A 0 x / a0) (fun x => A 1 x / a0) fun x => A 2 x / a0 := by
    have e1 : (Matrix.of (perAlat A a)).det = dot3 (perAlat A a 0) (cross (perAlat A a 1) (perAlat A a 2)) := by
      rw [Matrix.det_fin_three]
      simp [dot3, cross]
      ring
    have e2 : dot3 (fun x => A 0 x / a0) (cross (fun x => A 1 x / a0) fun x => A 2 x / a0) = dot3 (A 0) (cross (A 1) (A 2)) / a0 ^ 3 := by
      simp only [dot3, cross, Matrix.cons_val_zero, Matrix.cons_val_one, Matrix.cons_val]
      field_simp
    unfold cellVolume volume
    rw [e1, hp, e2, abs_of_pos (by positivity)]
    field_simp
  have hg : ∀ ig, G ig = fun x => gVectors A a m ig x * (2 * Real.pi / (a / a0)) := by
    intro ig
    have h1 : ∀ i, dot3 (fun x => G ig x * (a / a0) / (2 * Real.pi)) (perAlat A a i) = m ig i := by
      intro i
      have := hG ig i
      simp only [dot3, perAlat] at this ⊢
      have e : G ig 0 * (a / a0) / (2 * Real.pi) * (A i 0 / a) + G ig 1 * (a / a0) / (2 * Real.pi) * (A i 1 / a) +
          G ig 2 * (a / a0) / (2 * Real.pi) * (A i 2 / a) =
          (G ig 0 * (A i 0 / a0) + G ig 1 * (A i 1 / a0) + G ig 2 * (A i 2 / a0)) / (2 * Real.pi) := by
        field_simp
      rw [e, this]
      field_simp
    have h2 := dual_expansion (perAlat A a) hp0 (fun i => m ig i) _ h1
    funext x
    have h3 := congrFun h2 x
    have h4 : G ig x = G ig x * (a / a0) / (2 * Real.pi) * (2 * Real.pi / (a / a0)) := by
      field_simp
    rw [h4, h3]
    rfl
  rw [hartreeEnergy_eq, hvol]
  unfold electrostatic
  rw [Finset.sum_mul, Finset.sum_mul, Finset.sum_mul, Finset.mul_sum]
  refine Finset.sum_congr rfl fun ig _ => ?_
  have e3 : dot3 (G ig) (G ig) = dot3 (gVectors A a m ig) (gVectors A a m ig) * (2 * Real.pi / (a / a0)) ^ 2 := by
    rw [hg ig]
    simp only [dot3]
    ring
  have e4 : (star (rho ig) * (8 * Real.pi * rho ig / (dot3 (G ig) (G ig) : ℝ))).re = ‖rho ig‖ ^ 2 * (8 * Real.pi / dot3 (G ig) (G ig)) := by
    rw [show star (rho ig) * (8 * Real.pi * rho ig / (dot3 (G ig) (G ig) : ℝ)) = (rho ig * star (rho ig)) * (8 * Real.pi / (dot3 (G ig) (G ig) : ℝ)) by ring,
      Complex.star_def, Complex.mul_conj']
    rw [← Complex.ofReal_re (‖rho ig‖ ^ 2 * (8 * Real.pi / dot3 (G ig) (G ig)))]
    push_cast
    rfl
  rw [e4, e3]
  generalize dot3 (gVectors A a m ig) (gVectors A a m ig) = D
  generalize volume (fun x => A 0 x / a0) (fun x => A 1 x / a0) (fun x => A 2 x / a0) = W
  rw [← div_div, div_eq_mul_inv (8 * Real.pi)]
  ring

/-- C118 (files with `gamma_only`): such files contain only one of `G` and `-G`, and the flag is ignored. The energy of a density
with components 1 at `G` and `-G` is twice the one obtained from the file, which lacks the last vector. -/
theorem C118_gamma_violated : ∃ (rho : Nat → ℂ) (G : Nat → R3), G 0 = 0 ∧ G 2 = -G 1 ∧ rho 2 = star (rho 1) ∧
    ∀ a0 vol a, 0 < a0 → 0 < vol → 0 < a → hartreeEnergy a0 rho G 2 vol a ≠ hartreeEnergy a0 rho G 3 vol a ∧
      hartreeEnergy a0 rho G 3 vol a = 2 * hartreeEnergy a0 rho G 2 vol a := by
  refine ⟨fun _ => 1, fun ig => if ig = 0 then 0 else if ig = 1 then ![1, 0, 0] else -![1, 0, 0], by simp, by simp, by simp, ?_⟩
  intro a0 vol a h0 hv ha
  have hpi := Real.pi_pos
  have hp : 0 < 8 * Real.pi / (2 * Real.pi / (a / a0)) ^ 2 * (1 / 2) * vol := by positivity
  have e : ∀ n, hartreeEnergy a0 (fun _ => 1) (fun ig => if ig = 0 then 0 else if ig = 1 then ![1, 0, 0] else -![1, 0, 0]) n vol a =
      ((n - 1 : Nat) : ℝ) * (8 * Real.pi / (2 * Real.pi / (a / a0)) ^ 2 * (1 / 2) * vol) := by
    intro n
    rw [hartreeEnergy_eq, Finset.sum_congr rfl (g := fun _ => (1 : ℝ))]
    · simp
      ring
    · intro ig h
      have h1 := (Finset.mem_Ico.1 h).1
      have h2 : ig ≠ 0 := by omega
      by_cases h3 : ig = 1
      · simp [h3, dot3]
      · simp [h2, h3, dot3]
  rw [e, e]
  constructor
  · norm_num
    intro h
    linarith
  · norm_num

/-- Example: hypotheses of `C118_energy` for a tetragonal cell and its first reciprocal vector. -/
example : ∃ G : Nat → R3, ∀ ig i, dot3 (G ig) (fun x => (![![2, 0, 0], ![0, 2, 0], ![0, 0, 3]] : Fin 3 → R3) i x / 1) =
    2 * Real.pi * ((fun _ => ![1, 0, 0] : Nat → Fin 3 → ℤ) ig i : ℤ) := by
  refine ⟨fun _ => ![Real.pi, 0, 0], fun ig i => ?_⟩
  fin_cases i <;> simp [dot3]
  ring

end Verif.ElEl
