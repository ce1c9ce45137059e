import Verif.Phon.LongRange
import Mathlib.Analysis.Real.Pi.Bounds

/-!
# The self term of the long-range part need not be Hermitian (C76)
-/

namespace Verif.Phon

open Verif.Voronoi (V3)
open Verif.Lattice (irange)

/-- A simple cubic crystal (volume `(2 π)³`) of three atoms with neutral but anisotropic Born effective charges: the
first atom only couples to displacements along `x`, the second one to those along `y`. -/
noncomputable def skewExample : Polar 3 where
  a := fun x y => if x = y then 2 * Real.pi else 0
  b := fun x y => if x = y then 1 / (2 * Real.pi) else 0
  r := fun a x => if x = 0 then ![0, Real.pi, Real.pi / 2] a else 0
  eps := fun x y => if x = y then 1 else 0
  Z := fun a e u => if e = 0 then ![![1, 0, 0], ![0, 1, 0], ![-1, -1, 0]] a u else 0
  Q := none
  M := fun _ => 1
  lr2d := false
  L := none
  perp := true
  divideMass := false
  alpha := 3 / 224

theorem skew_neutral (e u : Fin 3) : ∑ a, skewExample.Z a e u = 0 := by
  simp only [skewExample, Fin.sum_univ_three]
  fin_cases u <;> by_cases h : e = 0 <;> simp [h]

theorem skew_gVec (m : V3) : gVec skewExample m = ![(m.1 : ℝ), (m.2.1 : ℝ), (m.2.2 : ℝ)] := by
  have h := Real.pi_pos.ne'
  funext x
  fin_cases x <;> simp [gVec, skewExample] <;> field_simp

theorem skew_keK (K : Fin 3 → ℝ) : keK skewExample K = K 0 ^ 2 + K 1 ^ 2 + K 2 ^ 2 := by
  simp [keK, skewExample, Fin.sum_univ_three]
  ring

theorem skew_scale : scale skewExample * 28 = 3 / 2 := by
  have h := Real.pi_pos.ne'
  have e : norm3 (skewExample.a 0) = 2 * Real.pi := by
    unfold norm3
    rw [show ∑ x, skewExample.a 0 x ^ 2 = (2 * Real.pi) ^ 2 by simp [skewExample, Fin.sum_univ_three]]
    exact Real.sqrt_sq (by positivity)
  unfold scale
  rw [e, div_self (by positivity)]
  simp only [skewExample]
  norm_num

theorem skew_nr (i : Fin 3) : nr skewExample 28 false i = 2 := by
  have h := Real.pi_pos.ne'
  have e : (norm3 fun x => 2 * Real.pi * skewExample.b i x) = 1 := by
    unfold norm3
    rw [show ∑ x, (2 * Real.pi * skewExample.b i x) ^ 2 = 1 by
      fin_cases i <;> simp [skewExample, Fin.sum_univ_three] <;> field_simp <;> simp]
    exact Real.sqrt_one
  unfold nr
  rw [skew_scale, e, div_one]
  have h1 : ⌊Real.sqrt (3 / 2)⌋₊ = 1 := by
    rw [Nat.floor_eq_iff (Real.sqrt_nonneg _)]
    constructor
    · rw [Nat.cast_one]
      exact Real.one_le_sqrt.2 (by norm_num)
    · rw [Real.sqrt_lt' (by norm_num)]
      norm_num
  rw [h1]
  simp [skewExample]

theorem skew_gList : gList skewExample 28 false =
    ([(-1, 0, 0), (0, -1, 0), (0, 0, -1), (0, 0, 0), (0, 0, 1), (0, 1, 0), (1, 0, 0)] : List V3).map
      (gVec skewExample) := by
  unfold gList
  congr 1
  have e : nr skewExample 28 false = fun _ => 2 := funext skew_nr
  rw [e]
  have e2 : ∀ m : V3, (keK skewExample (gVec skewExample m) < scale skewExample * 28) ↔
      m.1 ^ 2 + m.2.1 ^ 2 + m.2.2 ^ 2 ≤ 1 := by
    intro m
    rw [skew_gVec, skew_keK, skew_scale]
    constructor
    · intro h
      have h' : (((m.1 ^ 2 + m.2.1 ^ 2 + m.2.2 ^ 2 : Int)) : ℝ) < ((2 : Int) : ℝ) := by
        push_cast
        have : (m.1 : ℝ) ^ 2 + (m.2.1 : ℝ) ^ 2 + (m.2.2 : ℝ) ^ 2 < 3 / 2 := by simpa using h
        linarith
      have := Int.cast_lt.1 h'
      omega
    · intro h
      have h' : (((m.1 ^ 2 + m.2.1 ^ 2 + m.2.2 ^ 2 : Int)) : ℝ) ≤ ((1 : Int) : ℝ) := Int.cast_le.2 h
      push_cast at h'
      have : (m.1 : ℝ) ^ 2 + (m.2.1 : ℝ) ^ 2 + (m.2.2 : ℝ) ^ 2 < 3 / 2 := by linarith
      simpa using this
  have e3 : ((box fun _ => 2).filter fun m => @decide (keK skewExample (gVec skewExample m) < scale skewExample * 28)
      (Classical.propDecidable _)) = (box fun _ => 2).filter fun m => decide (m.1 ^ 2 + m.2.1 ^ 2 + m.2.2 ^ 2 ≤ 1) := by
    apply List.filter_congr
    intro m _
    simp only [e2 m]
  rw [e3]
  decide +kernel

theorem skew_kList : kList skewExample (gList skewExample 28 false) (fun _ => 0) =
    ([(-1, 0, 0), (0, -1, 0), (0, 0, -1), (0, 0, 1), (0, 1, 0), (1, 0, 0)] : List V3).map
      (gVec skewExample) := by
  rw [skew_gList]
  unfold kList
  have e : (fun g : Fin 3 → ℝ => fun x => g x + (0 : ℝ) * skewExample.b 0 x + (0 : ℝ) * skewExample.b 1 x +
      (0 : ℝ) * skewExample.b 2 x) = id := by
    funext g x
    simp
  rw [e, List.map_id]
  have h2 : ∀ x y z : ℝ, keK skewExample ![x, y, z] = x ^ 2 + y ^ 2 + z ^ 2 := fun x y z => by
    rw [skew_keK]
    rfl
  simp only [List.map_cons, List.map_nil, skew_gVec, List.filter_cons, List.filter_nil, h2]
  norm_num

theorem skew_einsum (i j : Fin 3 × Fin 3) :
    einsumLR (generateLongRange skewExample (gList skewExample 28 false) skewExample.Z skewExample.Q fun _ => 0) i j =
      (factor skewExample ![1, 0, 0] : ℂ) * (2 * (skewExample.Z i.1 0 i.2 * skewExample.Z j.1 0 j.2 *
        Real.cos (skewExample.r i.1 0 - skewExample.r j.1 0) : ℝ)) := by
  rw [einsum_eq, skew_kList]
  refine (add_zero _).trans ?_
  have hd : ∀ K a u, dotFactor skewExample skewExample.Z skewExample.Q K a u =
      Complex.I * ((K 0 * skewExample.Z a 0 u : ℝ) : ℂ) := by
    intro K a u
    simp [dotFactor, skewExample, Fin.sum_univ_three]
  have hx : ∀ K a, expFactor skewExample K a = Complex.exp (-Complex.I * ((K 0 * skewExample.r a 0 : ℝ) : ℂ)) := by
    intro K a
    simp [expFactor, skewExample, Fin.sum_univ_three]
  have h0 : ∀ m : V3, m.1 = 0 → term skewExample skewExample.Z skewExample.Q i j (gVec skewExample m) = 0 := by
    intro m hm
    simp [term, hd, skew_gVec, hm]
  have h1 : term skewExample skewExample.Z skewExample.Q i j (gVec skewExample (1, 0, 0)) =
      (factor skewExample ![1, 0, 0] : ℂ) * ((skewExample.Z i.1 0 i.2 * skewExample.Z j.1 0 j.2 : ℝ) : ℂ) *
        Complex.exp (((skewExample.r i.1 0 - skewExample.r j.1 0 : ℝ) : ℂ) * Complex.I) := by
    simp only [term, hd, hx, skew_gVec]
    simp only [Complex.star_def, map_mul, Complex.conj_I, Complex.conj_ofReal, ← Complex.exp_conj, map_neg]
    simp only [Int.cast_one, Int.cast_zero, Matrix.cons_val_zero, one_mul]
    have : Complex.exp (((skewExample.r i.1 0 - skewExample.r j.1 0 : ℝ) : ℂ) * Complex.I) =
        Complex.exp (-(-Complex.I) * (skewExample.r i.1 0 : ℂ)) *
          Complex.exp (-Complex.I * (skewExample.r j.1 0 : ℂ)) := by
      rw [← Complex.exp_add]
      congr 1
      push_cast
      ring
    rw [this]
    push_cast
    linear_combination (-(factor skewExample ![1, 0, 0] : ℂ) * (skewExample.Z i.1 0 i.2 : ℂ) *
      (skewExample.Z j.1 0 j.2 : ℂ) * Complex.exp (-(-Complex.I) * (skewExample.r i.1 0 : ℂ)) *
          Complex.exp (-Complex.I * (skewExample.r j.1 0 : ℂ))) * Complex.I_sq
  have h2 : term skewExample skewExample.Z skewExample.Q i j (gVec skewExample (-1, 0, 0)) =
      star (term skewExample skewExample.Z skewExample.Q i j (gVec skewExample (1, 0, 0))) := by
    rw [← term_neg, ← gVec_opp]
    rfl
  simp only [List.map_cons, List.map_nil, List.sum_cons, List.sum_nil, h2, h1]
  rw [h0 (0, -1, 0) rfl, h0 (0, 0, -1) rfl, h0 (0, 0, 1) rfl, h0 (0, 1, 0) rfl]
  simp only [Complex.star_def, map_mul, Complex.conj_ofReal, ← Complex.exp_conj, Complex.conj_I]
  push_cast
  rw [Complex.cos]
  simp only [mul_neg, neg_mul]
  ring

theorem skew_factor : factor skewExample ![1, 0, 0] ≠ 0 := by
  have hp : prefactor skewExample ≠ 0 := by
    unfold prefactor
    simp only [skewExample, Bool.false_eq_true, if_false]
    apply div_ne_zero
    · have := Real.pi_pos
      positivity
    · rw [abs_ne_zero]
      have := Real.pi_pos.ne'
      simp [Fin.sum_univ_three, Verif.Bravais.cross, this]
  have hk : keK skewExample ![1, 0, 0] = 1 := by
    rw [skew_keK]
    simp
  have : factor skewExample ![1, 0, 0] = prefactor skewExample *
      Real.exp (-keK skewExample ![1, 0, 0] / scale skewExample) / keK skewExample ![1, 0, 0] := rfl
  rw [this, hk, div_one]
  exact mul_ne_zero hp (Real.exp_pos _).ne'

/-- C76: with the default cutoff and neutral Born effective charges that are not multiples of the same tensor, the
long-range part of the dynamical matrix is not Hermitian at the center of the Brillouin zone (and, by
`C76_hermitian_partial`, nowhere): in the block of the first atom, the `xy` element differs from the `yx` element. -/
theorem C76_hermitian_violated : (∀ e u, ∑ a, skewExample.Z a e u = 0) ∧ ∀ q,
    star (Dlr skewExample 28 false q (0, 1) (0, 0)) ≠ Dlr skewExample 28 false q (0, 0) (0, 1) := by
  refine ⟨skew_neutral, fun q h => ?_⟩
  have hs := C76_hermitian_partial skewExample 28 false q (fun _ => 0) (0, 0) (0, 1)
  rw [star_sub, h, sub_right_inj] at hs
  have hz : zMass skewExample = skewExample.Z := by
    funext a e u
    simp [zMass, show skewExample.divideMass = false from rfl]
  have hq : qMass skewExample = skewExample.Q := rfl
  unfold Dlr at hs
  simp only [hz, hq] at hs
  rw [star_add, einsum_star, add_left_inj] at hs
  unfold D0lr at hs
  simp only [show skewExample.divideMass = false from rfl, Bool.false_eq_true, if_false, if_true, skew_einsum,
    Fin.sum_univ_three] at hs
  apply skew_factor
  simp [skewExample] at hs
  exact hs

end Verif.Phon
