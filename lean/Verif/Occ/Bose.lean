import Verif.Occ.Model
import Mathlib.Analysis.SpecificLimits.Normed
import Mathlib.Tactic.FieldSimp
import Mathlib.Tactic.Linarith

/-! # Property C132: Bose-Einstein function -/

namespace Verif.Occ

/-- Mean number of quanta of a harmonic oscillator: level `k` has the Boltzmann weight `exp(-k x)`. -/
noncomputable def meanQuanta (x : ℝ) : ℝ := (∑' k : ℕ, (k : ℝ) * Real.exp (-(k * x))) / ∑' k : ℕ, Real.exp (-(k * x))

theorem meanQuanta_eq (x : ℝ) (h : 0 < x) : meanQuanta x = 1 / (Real.exp x - 1) := by
  have e : ∀ k : ℕ, Real.exp (-(k * x)) = Real.exp (-x) ^ k := by
    intro k
    rw [← Real.exp_nat_mul]
    congr 1
    ring
  have h1 : Real.exp (-x) < 1 := by
    rw [Real.exp_lt_one_iff]
    linarith
  have h0 := Real.exp_pos (-x)
  unfold meanQuanta
  simp only [e]
  rw [tsum_geometric_of_lt_one h0.le h1, tsum_coe_mul_geometric_of_norm_lt_one (by rwa [Real.norm_of_nonneg h0.le])]
  rw [Real.exp_neg] at *
  have h2 : 1 < Real.exp x := Real.one_lt_exp_iff.2 h
  have h3 : (Real.exp x - 1) ≠ 0 := by linarith
  have h4 : (1 - (Real.exp x)⁻¹) = (Real.exp x - 1) / Real.exp x := by field_simp
  rw [h4]
  field_simp

/-- **C132**: `bose_einstein` is the mean number of quanta of a harmonic oscillator in units of the temperature, as long as the argument does not
exceed `xmax`. -/
theorem C132_mean (x : ℝ) (h : 0 < x) (h' : x ≤ xmax) : boseEinstein x = meanQuanta x := by
  rw [meanQuanta_eq x h, boseEinstein, min_eq_left h']

/-- **C132**: beyond, it is an upper bound with an error below the value at `xmax`. -/
theorem C132_clip (x : ℝ) (h : xmax < x) : meanQuanta x < boseEinstein x ∧ boseEinstein x = meanQuanta xmax := by
  have hx : 0 < xmax := by norm_num [xmax]
  rw [meanQuanta_eq x (hx.trans h), meanQuanta_eq xmax hx, boseEinstein, min_eq_right h.le]
  refine ⟨?_, rfl⟩
  have h1 : 1 < Real.exp xmax := Real.one_lt_exp_iff.2 hx
  have h2 : Real.exp xmax < Real.exp x := Real.exp_lt_exp.2 h
  apply one_div_lt_one_div_of_lt <;> linarith

/-- **C132**: detailed balance between emission and absorption, and quanta of negative energy. -/
theorem C132_balance (x : ℝ) (h : x ≠ 0) (h' : |x| ≤ xmax) :
    boseEinstein x = Real.exp (-x) * (1 + boseEinstein x) ∧ boseEinstein (-x) = -(1 + boseEinstein x) := by
  obtain ⟨h1, h2⟩ := abs_le.1 h'
  unfold boseEinstein
  rw [min_eq_left h2, min_eq_left (by linarith), Real.exp_neg]
  have h3 : Real.exp x - 1 ≠ 0 := by
    intro h0
    exact h (Real.exp_eq_one_iff x |>.1 (by linarith))
  have h4 := (Real.exp_pos x).ne'
  have h5 : (Real.exp x)⁻¹ - 1 = -(Real.exp x - 1) / Real.exp x := by field_simp; ring
  rw [h5]
  constructor
  · field_simp
    ring
  · rw [one_div_div, div_neg, neg_inj]
    field_simp
    ring

/-- **C132**: the number of quanta decreases with their energy. -/
theorem C132_decreasing (x y : ℝ) (h : 0 < x) (hy : x < y) (h' : y ≤ xmax) : 0 < boseEinstein y ∧ boseEinstein y < boseEinstein x := by
  unfold boseEinstein
  rw [min_eq_left h', min_eq_left (hy.le.trans h')]
  have h1 : 1 < Real.exp x := Real.one_lt_exp_iff.2 h
  have h2 : Real.exp x < Real.exp y := Real.exp_lt_exp.2 hy
  constructor
  · apply one_div_pos.2
    linarith
  · apply one_div_lt_one_div_of_lt <;> linarith

/-- One quantum per energy quantum `log 2`. -/
example : boseEinstein (Real.log 2) = 1 ∧ meanQuanta (Real.log 2) = 1 := by
  have h : 0 < Real.log 2 := Real.log_pos (by norm_num)
  have h' : Real.log 2 ≤ xmax := by
    have := Real.log_le_sub_one_of_pos (show (0 : ℝ) < 2 by norm_num)
    norm_num [xmax] at this ⊢
    linarith
  rw [C132_mean _ h h', meanQuanta_eq _ h, Real.exp_log (by norm_num)]
  norm_num

example : boseEinstein 800 = meanQuanta 709 := (C132_clip 800 (by norm_num [xmax])).2

example : boseEinstein (-1) = -(1 + boseEinstein 1) := (C132_balance 1 (by norm_num) (by norm_num [xmax])).2

example : boseEinstein 2 < boseEinstein 1 := (C132_decreasing 1 2 (by norm_num) (by norm_num) (by norm_num [xmax])).2

end Verif.Occ
