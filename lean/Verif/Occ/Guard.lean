import Verif.Occ.Deriv

/-!
# Effect of the overflow guards (C36, C37)
-/

namespace Verif.Occ

open Topology

/-- Entropy of independent fermions as a function of energy over temperature (without overflow guards). -/
noncomputable def exactEntropy (x : ℝ) : ℝ := x * (1 / (Real.exp x + 1) - 1) - Real.log (1 / (Real.exp x + 1))

theorem exactEntropy_neg (x : ℝ) : exactEntropy (-x) = exactEntropy x := by
  unfold exactEntropy
  have h := Real.exp_pos x
  have e : 1 / (Real.exp (-x) + 1) = Real.exp x * (1 / (Real.exp x + 1)) := by
    rw [Real.exp_neg]
    field_simp
    ring
  rw [e, Real.log_mul h.ne' (by positivity), Real.log_exp]
  field_simp
  ring

theorem exactEntropy_eq (x : ℝ) : exactEntropy x = x / (Real.exp x + 1) + Real.log (1 + Real.exp (-x)) := by
  unfold exactEntropy
  have h := Real.exp_pos x
  have e : Real.exp x + 1 = Real.exp x * (1 + Real.exp (-x)) := by
    rw [Real.exp_neg]
    field_simp
  have hl : Real.log (1 / (Real.exp x + 1)) = -(x + Real.log (1 + Real.exp (-x))) := by
    rw [one_div, Real.log_inv, e, Real.log_mul h.ne' (by positivity), Real.log_exp]
  rw [hl]
  ring

theorem exactEntropy_range (x : ℝ) (hx : 0 ≤ x) :
    0 ≤ exactEntropy x ∧ exactEntropy x ≤ (x + 1) * Real.exp (-x) := by
  rw [exactEntropy_eq]
  have h := Real.exp_pos x
  have hn := Real.exp_pos (-x)
  constructor
  · have := Real.log_nonneg (show 1 ≤ 1 + Real.exp (-x) by linarith)
    positivity
  · have h1 : Real.log (1 + Real.exp (-x)) ≤ Real.exp (-x) := by
      have := Real.log_le_sub_one_of_pos (show 0 < 1 + Real.exp (-x) by linarith)
      linarith
    have h2 : x / (Real.exp x + 1) ≤ x * Real.exp (-x) := by
      rw [Real.exp_neg, ← div_eq_mul_inv]
      exact div_le_div_of_nonneg_left hx h (by linarith)
    linarith

theorem decay_le (x : ℝ) (hx : 709 ≤ x) : (x + 1) * Real.exp (-x) ≤ 710 * Real.exp (-709) := by
  have h1 := Real.add_one_le_exp (x - 709)
  have h2 : Real.exp (-709) = Real.exp (x - 709) * Real.exp (-x) := by
    rw [← Real.exp_add]
    congr 1
    ring
  rw [h2, ← mul_assoc]
  exact mul_le_mul_of_nonneg_right (by nlinarith) (Real.exp_pos _).le

theorem exactEntropy_far (x : ℝ) (hx : 709 ≤ |x|) : 0 ≤ exactEntropy x ∧ exactEntropy x ≤ 710 * Real.exp (-709) := by
  have e : exactEntropy x = exactEntropy |x| := by
    rcases abs_choice x with h | h <;> rw [h]
    exact (exactEntropy_neg x).symm
  rw [e]
  obtain ⟨h1, h2⟩ := exactEntropy_range |x| (abs_nonneg x)
  exact ⟨h1, h2.trans (decay_le _ hx)⟩

theorem clip_abs_le (x : ℝ) : |clip x| ≤ 709 := by
  unfold clip xmax
  rcases lt_trichotomy x 0 with h | h | h
  · rw [Real.sign_of_neg h, neg_one_mul, abs_neg, abs_of_nonneg (le_min (abs_nonneg _) (by norm_num))]
    exact min_le_right _ _
  · simp [h]
  · rw [Real.sign_of_pos h, one_mul, abs_of_nonneg (le_min (abs_nonneg _) (by norm_num))]
    exact min_le_right _ _

theorem clip_far (x : ℝ) (hx : 709 < |x|) : |clip x| = 709 := by
  have h0 : x ≠ 0 := by
    rintro rfl
    norm_num at hx
  unfold clip xmax
  rw [min_eq_right hx.le]
  rcases lt_or_gt_of_ne h0 with h | h
  · rw [Real.sign_of_neg h]
    norm_num
  · rw [Real.sign_of_pos h]
    norm_num

theorem entropy_clip (x : ℝ) : fermiDiracEntropy x = exactEntropy (clip x) := by
  unfold fermiDiracEntropy exactEntropy fermiDirac xmax
  rw [min_eq_left ((le_abs_self _).trans (clip_abs_le x))]

theorem sub_le_of_range {a b c : ℝ} (ha : 0 ≤ a ∧ a ≤ c) (hb : 0 ≤ b ∧ b ≤ c) : |a - b| ≤ c := by
  rw [abs_le]
  constructor <;> linarith [ha.1, ha.2, hb.1, hb.2]

/-- C36: the overflow guards change the Fermi function and its negative derivative by at most `exp(-709)`, which is less
than the smallest normalized floating-point number, for all arguments. -/
theorem C36_guard_bound (x : ℝ) :
    |fermiDirac x - 1 / (Real.exp x + 1)| ≤ Real.exp (-709) ∧
    |fermiDiracDelta x - 1 / (2 * Real.cosh x + 2)| ≤ Real.exp (-709) := by
  have h0 := Real.exp_pos (-709)
  have key : ∀ y : ℝ, 709 ≤ y → 0 ≤ 1 / (Real.exp y + 1) ∧ 1 / (Real.exp y + 1) ≤ Real.exp (-709) := by
    intro y hy
    have := Real.exp_pos y
    refine ⟨by positivity, ?_⟩
    rw [Real.exp_neg, ← one_div]
    exact one_div_le_one_div_of_le (Real.exp_pos _) (by linarith [Real.exp_le_exp.2 hy])
  have key2 : ∀ y : ℝ, 709 ≤ y → 0 ≤ 1 / (2 * Real.cosh y + 2) ∧ 1 / (2 * Real.cosh y + 2) ≤ Real.exp (-709) := by
    intro y hy
    have := Real.cosh_pos y
    refine ⟨by positivity, ?_⟩
    rw [Real.exp_neg, ← one_div]
    refine one_div_le_one_div_of_le (Real.exp_pos _) ?_
    rw [Real.cosh_eq]
    linarith [Real.exp_le_exp.2 hy, Real.exp_pos (-y)]
  constructor
  · unfold fermiDirac xmax
    rcases le_or_gt x 709 with h | h
    · rw [min_eq_left h, sub_self, abs_zero]
      exact h0.le
    · rw [min_eq_right h.le]
      exact sub_le_of_range (key 709 le_rfl) (key x h.le)
  · unfold fermiDiracDelta xmax
    rcases le_or_gt |x| 709 with h | h
    · rw [min_eq_left h, Real.cosh_abs, sub_self, abs_zero]
      exact h0.le
    · rw [min_eq_right h.le, ← Real.cosh_abs x]
      exact sub_le_of_range (key2 709 le_rfl) (key2 |x| h.le)

example := C36_guard_bound 1000

/-- C37: the overflow guards change the entropy by at most `710 exp(-709)` for all arguments. -/
theorem C37_guard_bound (x : ℝ) : |fermiDiracEntropy x - exactEntropy x| ≤ 710 * Real.exp (-709) := by
  rw [entropy_clip]
  rcases le_or_gt |x| 709 with h | h
  · rw [clip_eq x h, sub_self, abs_zero]
    positivity
  · exact sub_le_of_range (exactEntropy_far _ (clip_far x h).ge) (exactEntropy_far x h.le)

/-- C37: without overflow guards, the derivative of the entropy is right for all arguments. -/
theorem C37_exact (x : ℝ) : HasDerivAt exactEntropy (-x * (1 / (2 * Real.cosh x + 2))) x := by
  have h := Real.exp_pos x
  have hf : HasDerivAt (fun y => 1 / (Real.exp y + 1)) (-(Real.exp x / (Real.exp x + 1) ^ 2)) x := by
    have := ((Real.hasDerivAt_exp x).add_const 1).inv (by positivity)
    have e : (fun y => 1 / (Real.exp y + 1)) = fun y => (Real.exp y + 1)⁻¹ := by
      funext y
      rw [one_div]
    rw [e]
    refine hd this ?_
    ring
  have h' := ((hasDerivAt_id x).mul (hf.sub_const 1)).sub (hf.log (by positivity))
  refine hd h' ?_
  have e : 2 * Real.cosh x + 2 = (Real.exp x + 1) ^ 2 / Real.exp x := by
    rw [Real.cosh_eq, Real.exp_neg]
    field_simp
    ring
  simp only [id]
  rw [e]
  field_simp
  ring

/-- C37 is violated (by less than the smallest normalized floating-point number) where the overflow guards take effect:
the entropy is constant, the product of its argument and `delta` does not vanish. -/
theorem C37_guard_violated (x : ℝ) (hx : 709 < |x|) :
    HasDerivAt fermiDiracEntropy 0 x ∧ -x * fermiDiracDelta x ≠ 0 := by
  have h0 : x ≠ 0 := by
    rintro rfl
    norm_num at hx
  constructor
  · apply (hasDerivAt_const x (exactEntropy 709)).congr_of_eventuallyEq
    have : ∀ᶠ y in 𝓝 x, 709 < |y| := (continuous_abs.tendsto x).eventually (lt_mem_nhds hx)
    filter_upwards [this] with y hy
    rw [entropy_clip]
    rcases abs_eq (by norm_num : (0 : ℝ) ≤ 709) |>.1 (clip_far y hy) with h | h
    · rw [h]
    · rw [h, exactEntropy_neg]
  · refine mul_ne_zero (neg_ne_zero.2 h0) (ne_of_gt ?_)
    unfold fermiDiracDelta
    have := Real.cosh_pos (min |x| xmax)
    positivity

example : 709 < |(-1000 : ℝ)| := by norm_num

end Verif.Occ
