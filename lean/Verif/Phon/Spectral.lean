import Mathlib.Analysis.Matrix.Spectrum
import Mathlib.Analysis.SpecialFunctions.Log.Deriv
import Mathlib.Analysis.SpecialFunctions.Trigonometric.ArctanDeriv
import Mathlib.MeasureTheory.Integral.IntegralEqImproper
import Mathlib.LinearAlgebra.Matrix.NonsingularInverse
import Verif.MPI.Props

/-!
# Model of `elphmod/ph.py` 2098-2140: phonon spectral function

Exact arithmetic. `np.linalg.inv` raises an exception for singular matrices (`none`). Leading axes of `D` (q points) are
treated separately.
-/

namespace Verif.Phon

open MeasureTheory Filter Topology Set

variable {n : Nat}

/-- Body of the loop in `elphmod/ph.py` 2128-2132. -/
noncomputable def spectralAt (D : Matrix (Fin n) (Fin n) ℂ) (omega eta : ℝ) : Option ℝ :=
  let Ginv : Matrix (Fin n) (Fin n) ℂ := D - ((omega + Complex.I * eta) ^ 2 : ℂ) • (1 : Matrix (Fin n) (Fin n) ℂ)
  open Classical in
  if Ginv.det = 0 then none else some (2 * omega / Real.pi * ∑ i, (Ginv⁻¹ i i).im)

/-- `elphmod/ph.py` 2098-2140 (`spectral_function`) on `size` processes. -/
noncomputable def spectralFunction (size : Nat) (D : Nat → Matrix (Fin n) (Fin n) ℂ) (omega : List ℝ) (eta : ℝ) :
    Option (List ℝ) :=
  (Verif.MPI.parMap size (fun w => spectralAt (D w) (omega.getD w 0) eta) (List.range omega.length)).bind fun l => l.mapM id

/-! ### Specification -/

/-- Spectral function of a single mode with squared frequency `l`. -/
noncomputable def lorentz (l eta omega : ℝ) : ℝ :=
  4 * eta * omega ^ 2 / (Real.pi * ((l - omega ^ 2 + eta ^ 2) ^ 2 + 4 * omega ^ 2 * eta ^ 2))

/-- What a mode with squared frequency `l` contributes to the integral: one state, unless it is too unstable. -/
noncomputable def weight (l eta : ℝ) : ℝ := if -eta ^ 2 ≤ l then 1 else eta / Real.sqrt (-l)

/-! ### Proofs -/

/-- Imaginary part of the Green function of one mode. -/
theorem im_mode (l eta omega : ℝ) :
    2 * omega / Real.pi * (((l : ℂ) - (omega + Complex.I * eta) ^ 2)⁻¹).im = lorentz l eta omega := by
  have h : (l : ℂ) - (omega + Complex.I * eta) ^ 2 =
      ((l - omega ^ 2 + eta ^ 2 : ℝ) : ℂ) + ((-(2 * omega * eta) : ℝ) : ℂ) * Complex.I := by
    push_cast
    linear_combination (eta : ℂ) ^ 2 * (-Complex.I_sq)
  rw [h, Complex.inv_im, Complex.normSq_add_mul_I, lorentz]
  simp only [Complex.add_im, Complex.ofReal_im, Complex.mul_im, Complex.ofReal_re, Complex.I_im, Complex.I_re]
  have hp := Real.pi_ne_zero
  rw [show (l - omega ^ 2 + eta ^ 2) ^ 2 + (-(2 * omega * eta)) ^ 2 =
    (l - omega ^ 2 + eta ^ 2) ^ 2 + 4 * omega ^ 2 * eta ^ 2 by ring]
  by_cases h0 : (l - omega ^ 2 + eta ^ 2) ^ 2 + 4 * omega ^ 2 * eta ^ 2 = 0
  · simp [h0]
  · field_simp
    ring

/-- For Hermitian matrices, the spectral function is a sum over the phonon modes. -/
theorem C97_modes (D : Matrix (Fin n) (Fin n) ℂ) (hD : D.IsHermitian) (omega eta : ℝ) (ho : 0 < omega) (he : 0 < eta) :
    spectralAt D omega eta = some (∑ nu, lorentz (hD.eigenvalues nu) eta omega) := by
  set z : ℂ := (omega + Complex.I * eta) ^ 2 with hz
  have hne : ∀ nu, ((hD.eigenvalues nu : ℝ) : ℂ) - z ≠ 0 := by
    intro nu h
    have := congrArg Complex.im h
    simp [hz, pow_two] at this
    nlinarith [mul_pos ho he]
  set U : Matrix (Fin n) (Fin n) ℂ := (hD.eigenvectorUnitary : Matrix (Fin n) (Fin n) ℂ) with hU
  have h1 : star U * U = 1 := Unitary.coe_star_mul_self hD.eigenvectorUnitary
  have h2 : U * star U = 1 := Unitary.coe_mul_star_self hD.eigenvectorUnitary
  have hs : D = U * Matrix.diagonal (fun nu => ((hD.eigenvalues nu : ℝ) : ℂ)) * star U := hD.spectral_theorem
  have hG : D - z • (1 : Matrix (Fin n) (Fin n) ℂ) =
      U * Matrix.diagonal (fun nu => ((hD.eigenvalues nu : ℝ) : ℂ) - z) * star U := by
    conv_lhs => rw [hs]
    rw [show (Matrix.diagonal fun nu => ((hD.eigenvalues nu : ℝ) : ℂ) - z) =
      Matrix.diagonal (fun nu => ((hD.eigenvalues nu : ℝ) : ℂ)) - z • (1 : Matrix (Fin n) (Fin n) ℂ) by
        ext i j
        by_cases h : i = j <;> simp [Matrix.diagonal, Matrix.one_apply, h]]
    rw [mul_sub, sub_mul, Matrix.mul_smul, Matrix.smul_mul, mul_one, h2]
  have hinv : (U * Matrix.diagonal (fun nu => ((hD.eigenvalues nu : ℝ) : ℂ) - z) * star U) *
      (U * Matrix.diagonal (fun nu => (((hD.eigenvalues nu : ℝ) : ℂ) - z)⁻¹) * star U) = 1 := by
    calc _ = U * Matrix.diagonal (fun nu => ((hD.eigenvalues nu : ℝ) : ℂ) - z) * (star U * U) *
          Matrix.diagonal (fun nu => (((hD.eigenvalues nu : ℝ) : ℂ) - z)⁻¹) * star U := by simp only [mul_assoc]
      _ = U * (Matrix.diagonal (fun nu => ((hD.eigenvalues nu : ℝ) : ℂ) - z) *
          Matrix.diagonal (fun nu => (((hD.eigenvalues nu : ℝ) : ℂ) - z)⁻¹)) * star U := by
            rw [h1, mul_one]; simp only [mul_assoc]
      _ = 1 := by
        rw [Matrix.diagonal_mul_diagonal]
        simp only [mul_inv_cancel₀ (hne _)]
        rw [Matrix.diagonal_one, mul_one, h2]
  unfold spectralAt
  simp only [← hz]
  rw [hG, if_neg]
  · rw [Matrix.inv_eq_right_inv hinv]
    congr 1
    have ht : ∑ i, (U * Matrix.diagonal (fun nu => (((hD.eigenvalues nu : ℝ) : ℂ) - z)⁻¹) * star U) i i =
        ∑ nu, (((hD.eigenvalues nu : ℝ) : ℂ) - z)⁻¹ := by
      change Matrix.trace _ = _
      rw [Matrix.trace_mul_comm, ← mul_assoc, h1, one_mul, Matrix.trace_diagonal]
    rw [← Complex.im_sum, ht, Complex.im_sum, Finset.mul_sum]
    exact Finset.sum_congr rfl fun nu _ => im_mode _ _ _
  · intro h0
    have := congrArg Matrix.det hinv
    rw [Matrix.det_mul, h0, zero_mul, Matrix.det_one] at this
    exact one_ne_zero this.symm

theorem lorentz_nonneg (l eta omega : ℝ) (he : 0 < eta) : 0 ≤ lorentz l eta omega := by
  unfold lorentz
  have := Real.pi_pos
  positivity

/-- C97: the spectral function is not negative. -/
theorem C97_nonneg (D : Matrix (Fin n) (Fin n) ℂ) (hD : D.IsHermitian) (omega eta : ℝ) (ho : 0 < omega) (he : 0 < eta) :
    ∃ A, spectralAt D omega eta = some A ∧ 0 ≤ A :=
  ⟨_, C97_modes D hD omega eta ho he, Finset.sum_nonneg fun _ _ => lorentz_nonneg _ _ _ he⟩

/-- C97: the result does not depend on the number of processes. -/
theorem C97_processes (size : Nat) (hsize : 0 < size) (D : Nat → Matrix (Fin n) (Fin n) ℂ) (omega : List ℝ) (eta : ℝ) :
    spectralFunction size D omega eta =
      (List.range omega.length).mapM fun w => spectralAt (D w) (omega.getD w 0) eta := by
  unfold spectralFunction
  rw [Verif.MPI.C02_parMap size hsize, Option.bind_some, List.mapM_map]
  rfl

/-! ### Integral over frequencies -/

theorem hasDerivAt_arctan_div (a omega : ℝ) (ho : 0 < omega) :
    HasDerivAt (fun w : ℝ => a * Real.arctan (w / a)) (a ^ 2 / (omega ^ 2 + a ^ 2)) omega := by
  by_cases ha : a = 0
  · subst ha
    simpa using hasDerivAt_const omega (0 : ℝ)
  · have h1 : HasDerivAt (fun w : ℝ => w / a) (1 / a) omega := (hasDerivAt_id omega).div_const a
    refine (h1.arctan.const_mul a).congr_deriv ?_
    have : omega ^ 2 + a ^ 2 ≠ 0 := by positivity
    have : 1 + (omega / a) ^ 2 ≠ 0 := by positivity
    field_simp
    ring

theorem tendsto_arctan_div (a : ℝ) : Tendsto (fun w : ℝ => a * Real.arctan (w / a)) atTop (𝓝 (|a| * (Real.pi / 2))) := by
  rcases lt_trichotomy a 0 with h | h | h
  · have h1 : Tendsto (fun w : ℝ => w / -a) atTop atTop := tendsto_id.atTop_div_const (by linarith)
    have h2 := ((Real.tendsto_arctan_atTop.mono_right nhdsWithin_le_nhds).comp h1).const_mul (-a)
    rw [abs_of_neg h]
    refine h2.congr fun w => ?_
    simp [div_neg, Real.arctan_neg]
  · subst h
    simp
  · have h1 : Tendsto (fun w : ℝ => w / a) atTop atTop := tendsto_id.atTop_div_const h
    have h2 := ((Real.tendsto_arctan_atTop.mono_right nhdsWithin_le_nhds).comp h1).const_mul a
    rw [abs_of_pos h]
    exact h2

/-- Unstable modes. -/
theorem integral_unstable (k eta : ℝ) (hk : 0 < k) (he : 0 < eta) :
    IntegrableOn (lorentz (-k ^ 2) eta) (Ioi 0) ∧
      ∫ w in Ioi 0, lorentz (-k ^ 2) eta w = if k ≤ eta then 1 else eta / k := by
  set F : ℝ → ℝ := fun w => ((eta + k) * Real.arctan (w / (eta + k)) - (eta - k) * Real.arctan (w / (eta - k))) /
    (Real.pi * k) with hF
  have hp := Real.pi_pos
  have hd : ∀ w ∈ Ioi (0 : ℝ), HasDerivAt F (lorentz (-k ^ 2) eta w) w := by
    intro w hw
    have hw' : (0 : ℝ) < w := hw
    refine (((hasDerivAt_arctan_div (eta + k) w hw').sub (hasDerivAt_arctan_div (eta - k) w hw')).div_const _).congr_deriv ?_
    unfold lorentz
    have e1 : (-k ^ 2 - w ^ 2 + eta ^ 2) ^ 2 + 4 * w ^ 2 * eta ^ 2 = (w ^ 2 + (eta + k) ^ 2) * (w ^ 2 + (eta - k) ^ 2) := by
      ring
    rw [e1]
    have h1 : w ^ 2 + (eta + k) ^ 2 ≠ 0 := by positivity
    have h2 : w ^ 2 + (eta - k) ^ 2 ≠ 0 := by positivity
    field_simp
    ring
  have hc : ContinuousWithinAt F (Ici 0) 0 := by
    have : Continuous F := by
      rw [hF]
      fun_prop
    exact this.continuousWithinAt
  have hl : Tendsto F atTop (𝓝 ((|eta + k| * (Real.pi / 2) - |eta - k| * (Real.pi / 2)) / (Real.pi * k))) :=
    ((tendsto_arctan_div (eta + k)).sub (tendsto_arctan_div (eta - k))).div_const _
  have hn : ∀ w ∈ Ioi (0 : ℝ), 0 ≤ lorentz (-k ^ 2) eta w := fun w _ => lorentz_nonneg _ _ _ he
  refine ⟨integrableOn_Ioi_deriv_of_nonneg hc hd hn hl, ?_⟩
  rw [integral_Ioi_of_hasDerivAt_of_nonneg hc hd hn hl]
  have h0 : F 0 = 0 := by simp [hF]
  rw [h0, sub_zero, abs_of_pos (by linarith)]
  split
  · rename_i h
    rw [abs_of_nonneg (by linarith)]
    field_simp
    ring
  · rename_i h
    rw [abs_of_neg (by linarith)]
    field_simp
    ring

/-- Modes of zero frequency. -/
theorem integral_zero (eta : ℝ) (he : 0 < eta) :
    IntegrableOn (lorentz 0 eta) (Ioi 0) ∧ ∫ w in Ioi 0, lorentz 0 eta w = 1 := by
  set F : ℝ → ℝ := fun w => 2 / Real.pi * (Real.arctan (w / eta) - eta * w / (w ^ 2 + eta ^ 2)) with hF
  have hp := Real.pi_pos
  have hd : ∀ w ∈ Ici (0 : ℝ), HasDerivAt F (lorentz 0 eta w) w := by
    intro w _
    have h1 : HasDerivAt (fun w : ℝ => w / eta) (1 / eta) w := (hasDerivAt_id w).div_const eta
    have h2 : HasDerivAt (fun w : ℝ => eta * w) (eta * 1) w := (hasDerivAt_id w).const_mul eta
    have h3 : HasDerivAt (fun w : ℝ => w ^ 2 + eta ^ 2) (2 * w) w := by
      simpa using (hasDerivAt_pow 2 w).add_const (eta ^ 2)
    have hne : w ^ 2 + eta ^ 2 ≠ 0 := by positivity
    refine ((h1.arctan.sub (h2.div h3 hne)).const_mul (2 / Real.pi)).congr_deriv ?_
    unfold lorentz
    have e1 : (0 - w ^ 2 + eta ^ 2) ^ 2 + 4 * w ^ 2 * eta ^ 2 = (w ^ 2 + eta ^ 2) ^ 2 := by ring
    rw [e1]
    have : 1 + (w / eta) ^ 2 ≠ 0 := by positivity
    field_simp
    ring
  have hl : Tendsto F atTop (𝓝 (2 / Real.pi * (Real.pi / 2 - 0))) := by
    have h1 : Tendsto (fun w : ℝ => w / eta) atTop atTop := tendsto_id.atTop_div_const he
    have h2 := (Real.tendsto_arctan_atTop.mono_right nhdsWithin_le_nhds).comp h1
    refine (h2.sub ?_).const_mul _
    refine squeeze_zero' (g := fun w : ℝ => eta / w) ?_ ?_ (tendsto_const_nhds.div_atTop tendsto_id)
    · filter_upwards [eventually_gt_atTop 0] with w hw
      positivity
    · filter_upwards [eventually_gt_atTop 0] with w hw
      rw [div_le_div_iff₀ (by positivity) hw]
      nlinarith [mul_pos he (pow_pos he 2)]
  have hn : ∀ w ∈ Ioi (0 : ℝ), 0 ≤ lorentz 0 eta w := fun w _ => lorentz_nonneg _ _ _ he
  refine ⟨integrableOn_Ioi_deriv_of_nonneg' hd hn hl, ?_⟩
  rw [integral_Ioi_of_hasDerivAt_of_nonneg' hd hn hl]
  have h0 : F 0 = 0 := by simp [hF]
  rw [h0]
  field_simp
  ring

/-- Stable modes. -/
theorem integral_stable (k eta : ℝ) (hk : 0 < k) (he : 0 < eta) :
    IntegrableOn (lorentz (k ^ 2) eta) (Ioi 0) ∧ ∫ w in Ioi 0, lorentz (k ^ 2) eta w = 1 := by
  set F : ℝ → ℝ := fun w => (eta / 2 * (Real.log ((w - k) ^ 2 + eta ^ 2) - Real.log ((w + k) ^ 2 + eta ^ 2)) +
    k * (Real.arctan ((w - k) / eta) + Real.arctan ((w + k) / eta))) / (Real.pi * k) with hF
  have hp := Real.pi_pos
  have hd : ∀ w ∈ Ici (0 : ℝ), HasDerivAt F (lorentz (k ^ 2) eta w) w := by
    intro w _
    have a1 : HasDerivAt (fun w : ℝ => w - k) 1 w := (hasDerivAt_id w).sub_const k
    have a2 : HasDerivAt (fun w : ℝ => w + k) 1 w := (hasDerivAt_id w).add_const k
    have n1 : (w - k) ^ 2 + eta ^ 2 ≠ 0 := by positivity
    have n2 : (w + k) ^ 2 + eta ^ 2 ≠ 0 := by positivity
    have b1 : HasDerivAt (fun w : ℝ => (w - k) ^ 2 + eta ^ 2) (2 * (w - k)) w := by
      simpa using (a1.pow 2).add_const (eta ^ 2)
    have b2 : HasDerivAt (fun w : ℝ => (w + k) ^ 2 + eta ^ 2) (2 * (w + k)) w := by
      simpa using (a2.pow 2).add_const (eta ^ 2)
    have h := (((((b1.log n1).sub (b2.log n2)).const_mul (eta / 2)).add
      (((a1.div_const eta).arctan.add (a2.div_const eta).arctan).const_mul k)).div_const (Real.pi * k))
    refine h.congr_deriv ?_
    unfold lorentz
    have e1 : (k ^ 2 - w ^ 2 + eta ^ 2) ^ 2 + 4 * w ^ 2 * eta ^ 2 = ((w - k) ^ 2 + eta ^ 2) * ((w + k) ^ 2 + eta ^ 2) := by
      ring
    rw [e1]
    have c1 : 1 / (1 + ((w - k) / eta) ^ 2) * (1 / eta) = eta / ((w - k) ^ 2 + eta ^ 2) := by
      have : 1 + ((w - k) / eta) ^ 2 ≠ 0 := by positivity
      field_simp
      ring
    have c2 : 1 / (1 + ((w + k) / eta) ^ 2) * (1 / eta) = eta / ((w + k) ^ 2 + eta ^ 2) := by
      have : 1 + ((w + k) / eta) ^ 2 ≠ 0 := by positivity
      field_simp
      ring
    rw [c1, c2]
    field_simp
    ring
  have hl : Tendsto F atTop (𝓝 ((eta / 2 * 0 + k * (Real.pi / 2 + Real.pi / 2)) / (Real.pi * k))) := by
    have h1 : Tendsto (fun w : ℝ => (w - k) / eta) atTop atTop :=
      (tendsto_atTop_add_const_right atTop (-k) tendsto_id).atTop_div_const he
    have h2 : Tendsto (fun w : ℝ => (w + k) / eta) atTop atTop :=
      (tendsto_atTop_add_const_right atTop k tendsto_id).atTop_div_const he
    have g1 := (Real.tendsto_arctan_atTop.mono_right nhdsWithin_le_nhds).comp h1
    have g2 := (Real.tendsto_arctan_atTop.mono_right nhdsWithin_le_nhds).comp h2
    refine Tendsto.div_const (Tendsto.add (Tendsto.const_mul _ ?_) (Tendsto.const_mul _ (g1.add g2))) _
    have hr : Tendsto (fun w : ℝ => 1 - 4 * w * k / ((w + k) ^ 2 + eta ^ 2)) atTop (𝓝 (1 - 0)) := by
      refine tendsto_const_nhds.sub ?_
      refine squeeze_zero' (g := fun w : ℝ => (4 * k) / w) ?_ ?_ (tendsto_const_nhds.div_atTop tendsto_id)
      · filter_upwards [eventually_gt_atTop 0] with w hw
        positivity
      · filter_upwards [eventually_gt_atTop 0] with w hw
        rw [div_le_div_iff₀ (by positivity) hw]
        nlinarith [mul_pos hk hw, mul_pos hk (mul_pos hk hw), mul_pos hk (pow_pos he 2), mul_pos hk (pow_pos hk 2)]
    rw [sub_zero] at hr
    have hlog := (Real.continuousAt_log one_ne_zero).tendsto.comp hr
    rw [Real.log_one] at hlog
    refine hlog.congr fun w => ?_
    have n1 : (w - k) ^ 2 + eta ^ 2 ≠ 0 := by positivity
    have n2 : (w + k) ^ 2 + eta ^ 2 ≠ 0 := by positivity
    rw [Function.comp_apply, ← Real.log_div n1 n2]
    congr 1
    field_simp
    ring
  have hn : ∀ w ∈ Ioi (0 : ℝ), 0 ≤ lorentz (k ^ 2) eta w := fun w _ => lorentz_nonneg _ _ _ he
  refine ⟨integrableOn_Ioi_deriv_of_nonneg' hd hn hl, ?_⟩
  rw [integral_Ioi_of_hasDerivAt_of_nonneg' hd hn hl]
  have h0 : F 0 = 0 := by simp [hF, neg_div, Real.arctan_neg]
  rw [h0]
  field_simp
  ring

theorem integral_mode (l eta : ℝ) (he : 0 < eta) :
    IntegrableOn (lorentz l eta) (Ioi 0) ∧ ∫ w in Ioi 0, lorentz l eta w = weight l eta := by
  unfold weight
  rcases lt_trichotomy l 0 with h | h | h
  · have hk : 0 < Real.sqrt (-l) := Real.sqrt_pos.2 (by linarith)
    have hl : l = -(Real.sqrt (-l)) ^ 2 := by rw [Real.sq_sqrt (by linarith)]; ring
    have := integral_unstable (Real.sqrt (-l)) eta hk he
    rw [← hl] at this
    refine ⟨this.1, this.2.trans ?_⟩
    have hc : Real.sqrt (-l) ≤ eta ↔ -eta ^ 2 ≤ l := by
      rw [Real.sqrt_le_left he.le]
      constructor <;> intro h <;> linarith
    simp only [hc]
  · subst h
    rw [if_pos (by nlinarith [sq_nonneg eta])]
    exact integral_zero eta he
  · have hk : 0 < Real.sqrt l := Real.sqrt_pos.2 h
    have := integral_stable (Real.sqrt l) eta hk he
    rw [Real.sq_sqrt h.le] at this
    rw [if_pos (by nlinarith [sq_nonneg eta])]
    exact this

/-- C97: integral of the spectral function over all positive frequencies. -/
theorem C97_integral (D : Matrix (Fin n) (Fin n) ℂ) (hD : D.IsHermitian) (eta : ℝ) (he : 0 < eta) :
    ∫ w in Ioi 0, (spectralAt D w eta).getD 0 = ∑ nu, weight (hD.eigenvalues nu) eta := by
  rw [setIntegral_congr_fun measurableSet_Ioi (g := fun w => ∑ nu, lorentz (hD.eigenvalues nu) eta w)]
  · rw [integral_finset_sum _ fun nu _ => (integral_mode _ eta he).1]
    exact Finset.sum_congr rfl fun nu _ => (integral_mode _ eta he).2
  · intro w hw
    simp only [C97_modes D hD w eta hw he, Option.getD_some]

/-- C97: the spectral function is normalized to the number of modes, provided that there are no modes with imaginary
frequencies beyond the broadening. -/
theorem C97_normalized (D : Matrix (Fin n) (Fin n) ℂ) (hD : D.IsHermitian) (eta : ℝ) (he : 0 < eta)
    (hs : ∀ nu, -eta ^ 2 ≤ hD.eigenvalues nu) : ∫ w in Ioi 0, (spectralAt D w eta).getD 0 = n := by
  rw [C97_integral D hD eta he]
  simp [weight, hs]

/-- C97: with such modes, the integral is smaller than the number of modes. -/
theorem C97_unstable (D : Matrix (Fin n) (Fin n) ℂ) (hD : D.IsHermitian) (eta : ℝ) (he : 0 < eta)
    (hs : ∃ nu, hD.eigenvalues nu < -eta ^ 2) : ∫ w in Ioi 0, (spectralAt D w eta).getD 0 < n := by
  rw [C97_integral D hD eta he]
  obtain ⟨nu, hnu⟩ := hs
  have h1 : ∀ l, l < -eta ^ 2 → weight l eta < 1 := by
    intro l hl
    have h2 : eta < Real.sqrt (-l) := by
      rw [Real.lt_sqrt he.le]
      linarith
    unfold weight
    rw [if_neg (by linarith), div_lt_one (he.trans h2)]
    exact h2
  have h2 : ∀ l, weight l eta ≤ 1 := by
    intro l
    by_cases hl : -eta ^ 2 ≤ l
    · simp [weight, hl]
    · exact (h1 l (by linarith)).le
  calc _ < ∑ _nu : Fin n, (1 : ℝ) := Finset.sum_lt_sum (fun i _ => h2 _) ⟨nu, Finset.mem_univ nu, h1 _ hnu⟩
    _ = n := by simp

/-- Dynamical matrices with one mode meet the hypotheses. -/
theorem eigenvalue_single (c : ℝ) (h : (!![(c : ℂ)] : Matrix (Fin 1) (Fin 1) ℂ).IsHermitian) (nu : Fin 1) :
    h.eigenvalues nu = c := by
  have := h.trace_eq_sum_eigenvalues
  simp only [Matrix.trace_fin_one, Finset.univ_unique, Fin.default_eq_zero, Finset.sum_singleton] at this
  rw [Fin.eq_zero nu]
  exact Complex.ofReal_injective (by simpa using this.symm)

theorem isHermitian_single (c : ℝ) : (!![(c : ℂ)] : Matrix (Fin 1) (Fin 1) ℂ).IsHermitian := by
  ext i j
  fin_cases i
  fin_cases j
  simp [Matrix.conjTranspose]

example : ∫ w in Ioi 0, (spectralAt (!![((9 : ℝ) : ℂ)] : Matrix (Fin 1) (Fin 1) ℂ) w 2).getD 0 = 1 := by
  have h := C97_normalized _ (isHermitian_single 9) 2 (by norm_num) (by
    intro nu
    rw [eigenvalue_single]
    norm_num)
  simpa using h

example : ∫ w in Ioi 0, (spectralAt (!![((-9 : ℝ) : ℂ)] : Matrix (Fin 1) (Fin 1) ℂ) w 2).getD 0 < 1 := by
  have h := C97_unstable _ (isHermitian_single (-9)) 2 (by norm_num) ⟨0, by
    rw [eigenvalue_single]
    norm_num⟩
  simpa using h

example : ∃ A, spectralAt (!![2, Complex.I; -Complex.I, 3] : Matrix (Fin 2) (Fin 2) ℂ) 1 (1 / 10) = some A ∧ 0 ≤ A :=
  C97_nonneg _ (by ext i j; fin_cases i <;> fin_cases j <;> simp [Matrix.conjTranspose, Complex.conj_ofNat]) _ _ (by norm_num) (by norm_num)

example : spectralFunction 3 (fun _ => (1 : Matrix (Fin 2) (Fin 2) ℂ)) [1, 2] 1 =
    (List.range 2).mapM fun w => spectralAt (1 : Matrix (Fin 2) (Fin 2) ℂ) ([1, 2].getD w 0) 1 :=
  C97_processes 3 (by decide) _ _ _

end Verif.Phon
