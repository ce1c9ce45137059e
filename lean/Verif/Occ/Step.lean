import Verif.Occ.Deriv
import Mathlib.MeasureTheory.Integral.IntegralEqImproper
import Mathlib.Analysis.Polynomial.Basic
import Mathlib.Analysis.SpecialFunctions.Exp
import Mathlib.Analysis.SpecialFunctions.PolynomialExp
import Mathlib.Analysis.SpecialFunctions.Trigonometric.Cotangent

/-! # Property C35: smooth steps -/

namespace Verif.Occ

open Filter Topology

/-- Specification: a function falling from one to zero, point symmetric about `(0, 1 / 2)`. -/
structure SmoothStep (f : ℝ → ℝ) : Prop where
  pos : ∀ x, 0 < f x
  lt_one : ∀ x, f x < 1
  anti : StrictAnti f
  symm : ∀ x, f x + f (-x) = 1
  top : Tendsto f atTop (𝓝 0)
  bot : Tendsto f atBot (𝓝 1)

theorem SmoothStep.of (f : ℝ → ℝ) (h1 : StrictAnti f) (h2 : ∀ x, f x + f (-x) = 1)
    (h3 : Tendsto f atTop (𝓝 0)) : SmoothStep f := by
  have hb : Tendsto f atBot (𝓝 1) := by
    have : f = fun x => 1 - f (-x) := by
      funext x
      linarith [h2 x]
    rw [this]
    have h := (h3.comp tendsto_neg_atBot_atTop).const_sub 1
    simpa [Function.comp] using h
  have hpos : ∀ x, 0 < f x := by
    intro x
    have h := h1 (show x < x + 1 by linarith)
    have h' : 0 ≤ f (x + 1) := h1.antitone.le_of_tendsto h3 (x + 1)
    linarith
  refine ⟨hpos, ?_, h1, h2, h3, hb⟩
  intro x
  linarith [h2 x, hpos (-x)]

/-! ### Gaussian -/

theorem erf_neg (x : ℝ) : erf (-x) = -erf x := by
  unfold erf
  have h := intervalIntegral.integral_comp_neg (a := 0) (b := x) fun t : ℝ => Real.exp (-t * t)
  rw [neg_zero, intervalIntegral.integral_symm 0 (-x)] at h
  have e : ∫ t in (0 : ℝ)..x, Real.exp (-(-t) * -t) = ∫ t in (0 : ℝ)..x, Real.exp (-t * t) := by
    congr 1
    funext t
    ring_nf
  rw [e] at h
  linear_combination (2 / Real.sqrt Real.pi) * h

theorem erf_tendsto : Tendsto erf atTop (𝓝 1) := by
  have hi : MeasureTheory.IntegrableOn (fun t : ℝ => Real.exp (-t * t)) (Set.Ioi 0) := by
    have h := (integrable_exp_neg_mul_sq (b := 1) one_pos).integrableOn (s := Set.Ioi (0 : ℝ))
    refine h.congr_fun ?_ measurableSet_Ioi
    intro t _
    ring_nf
  have h := MeasureTheory.intervalIntegral_tendsto_integral_Ioi (0 : ℝ) hi tendsto_id
  have e : ∫ t in Set.Ioi (0 : ℝ), Real.exp (-t * t) = Real.sqrt Real.pi / 2 := by
    have := integral_gaussian_Ioi 1
    rw [div_one] at this
    rw [← this]
    congr 1
    funext t
    ring_nf
  rw [e] at h
  have h' := h.const_mul (2 / Real.sqrt Real.pi)
  have hp := sqrt_pi_pos
  have e1 : 2 / Real.sqrt Real.pi * (Real.sqrt Real.pi / 2) = 1 := by field_simp
  rw [e1] at h'
  exact h'

theorem gaussDelta_pos (x : ℝ) : 0 < gaussDelta x := by
  unfold gaussDelta
  have := sqrt_pi_pos
  positivity

/-- C35 (Gaussian). -/
theorem C35_gauss : SmoothStep gauss := by
  apply SmoothStep.of
  · apply strictAnti_of_deriv_neg
    intro x
    rw [(C36_gauss x).1.deriv]
    linarith [gaussDelta_pos x]
  · intro x
    unfold gauss
    rw [erf_neg]
    ring
  · have h := (erf_tendsto.const_sub 1).div_const 2
    unfold gauss
    simpa using h

/-! ### Lorentz -/

/-- C35 (Lorentz). -/
theorem C35_lorentz : SmoothStep lorentz := by
  have hpi := Real.pi_pos
  apply SmoothStep.of
  · apply strictAnti_of_deriv_neg
    intro x
    rw [(C36_lorentz x).1.deriv]
    have : 0 < lorentzDelta x := by
      unfold lorentzDelta
      have : 0 < x * x + Real.pi * Real.pi := by nlinarith [mul_self_nonneg x, mul_pos hpi hpi]
      positivity
    linarith
  · intro x
    unfold lorentz
    rw [neg_div, Real.arctan_neg]
    ring
  · have h1 : Tendsto (fun x : ℝ => x / Real.pi) atTop atTop := tendsto_id.atTop_div_const hpi
    have h2 : Tendsto Real.arctan atTop (𝓝 (Real.pi / 2)) :=
      Real.tendsto_arctan_atTop.mono_right nhdsWithin_le_nhds
    have h := ((h2.comp h1).div_const Real.pi).const_sub 0.5
    have e : (0.5 : ℝ) - Real.pi / 2 / Real.pi = 0 := by
      field_simp
      norm_num
    rw [e] at h
    exact h

/-! ### Heaviside -/

/-- C35 (Heaviside). -/
theorem C35_heaviside :
    (∀ x < 0, heaviside x = 1) ∧ heaviside 0 = 1 / 2 ∧ (∀ x > 0, heaviside x = 0) ∧
    ∀ x, heaviside x + heaviside (-x) = 1 := by
  unfold heaviside
  refine ⟨?_, ?_, ?_, ?_⟩
  · intro x hx
    rw [Real.sign_of_neg hx]
    norm_num
  · rw [Real.sign_zero]
    norm_num
  · intro x hx
    rw [Real.sign_of_pos hx]
    norm_num
  · intro x
    have : Real.sign (-x) = -Real.sign x := by
      rcases lt_trichotomy x 0 with h | rfl | h
      · rw [Real.sign_of_neg h, Real.sign_of_pos (by linarith)]
        norm_num
      · simp
      · rw [Real.sign_of_pos h, Real.sign_of_neg (by linarith)]
    rw [this]
    norm_num

/-! ### Fermi-Dirac -/

/-- The exact Fermi function. -/
noncomputable def fermi (x : ℝ) : ℝ := 1 / (Real.exp x + 1)

theorem fermi_smoothStep : SmoothStep fermi := by
  apply SmoothStep.of
  · intro x y h
    unfold fermi
    have := Real.exp_lt_exp.2 h
    have := Real.exp_pos x
    apply one_div_lt_one_div_of_lt <;> linarith
  · intro x
    unfold fermi
    rw [Real.exp_neg]
    have := Real.exp_pos x
    field_simp
    ring
  · have h : Tendsto (fun x => Real.exp x + 1) atTop atTop :=
      tendsto_atTop_add_const_right _ _ Real.tendsto_exp_atTop
    have := h.inv_tendsto_atTop
    unfold fermi
    simpa [Pi.inv_def] using this

theorem fermiDirac_eq (x : ℝ) (h : x ≤ xmax) : fermiDirac x = fermi x := by
  unfold fermiDirac fermi
  rw [min_eq_left h]

/-- C35 (Fermi-Dirac). Everywhere between zero and one and nonincreasing; below the overflow guard exactly the
Fermi function, elsewhere within `exp(-709)`. -/
theorem C35_fermi_dirac (x : ℝ) :
    0 < fermiDirac x ∧ fermiDirac x < 1 ∧ (∀ y, x ≤ y → fermiDirac y ≤ fermiDirac x) ∧
    (x ≤ 709 → fermiDirac x = fermi x ∧ ∀ y < x, fermiDirac x < fermiDirac y) ∧
    0 ≤ fermiDirac x - fermi x ∧ fermiDirac x - fermi x < Real.exp (-709) := by
  have hA : Antitone fermiDirac := by
    intro y z h
    have hm : min y xmax ≤ min z xmax := min_le_min_right _ h
    have := Real.exp_le_exp.2 hm
    unfold fermiDirac
    apply one_div_le_one_div_of_le
    · positivity
    · linarith
  refine ⟨?_, ?_, fun y h => hA h, ?_, ?_⟩
  · unfold fermiDirac
    positivity
  · unfold fermiDirac
    have := Real.exp_pos (min x xmax)
    rw [div_lt_one (by positivity)]
    linarith
  · intro h
    refine ⟨fermiDirac_eq x h, ?_⟩
    intro y hy
    rw [fermiDirac_eq x h, fermiDirac_eq y (hy.le.trans h)]
    exact fermi_smoothStep.anti hy
  · rcases le_total x xmax with h | h
    · rw [fermiDirac_eq x h, sub_self]
      exact ⟨le_refl _, Real.exp_pos _⟩
    · have e : fermiDirac x = fermi xmax := by
        unfold fermiDirac fermi
        rw [min_eq_right h]
      rw [e]
      refine ⟨sub_nonneg.2 (fermi_smoothStep.anti.antitone h), ?_⟩
      have h1 := fermi_smoothStep.pos x
      have h2 : fermi xmax < Real.exp (-709) := by
        unfold fermi xmax
        rw [Real.exp_neg, one_div]
        have := Real.exp_pos 709
        apply inv_strictAnti₀ this
        linarith
      linarith

example : fermiDirac 0 = 1 / 2 := by
  rw [fermiDirac_eq 0 (by unfold xmax; norm_num)]
  unfold fermi
  norm_num

/-- C35 (Fermi-Dirac; partial: arguments not affected by the overflow guard). -/
theorem C35_fermi_dirac_symm_partial (x : ℝ) (hx : |x| ≤ 709) : fermiDirac x + fermiDirac (-x) = 1 := by
  obtain ⟨h1, h2⟩ := abs_le.1 hx
  rw [fermiDirac_eq x h2, fermiDirac_eq (-x) (by unfold xmax; linarith)]
  exact fermi_smoothStep.symm x

example : |(-3 : ℝ)| ≤ 709 := by norm_num

/-- C35 is violated (by less than `exp(-709)`) beyond: occupations of particles and holes sum to more than one. -/
theorem C35_fermi_dirac_symm_violated (x : ℝ) (hx : 709 < x) : 1 < fermiDirac x + fermiDirac (-x) := by
  have e : fermiDirac x = fermi xmax := by
    unfold fermiDirac fermi
    rw [min_eq_right (show xmax ≤ x from le_of_lt hx)]
  rw [e, fermiDirac_eq (-x) (by unfold xmax; linarith)]
  have h1 := fermi_smoothStep.symm x
  have h2 := fermi_smoothStep.anti (show xmax < x from hx)
  linarith

/-- C35 (double Fermi-Dirac): between zero and one, nonincreasing; symmetric where the guards do not act. -/
theorem C35_double_fermi_dirac (d x : ℝ) :
    0 < doubleFermiDirac d x ∧ doubleFermiDirac d x < 1 ∧
    (∀ y, x ≤ y → doubleFermiDirac d y ≤ doubleFermiDirac d x) ∧
    (|x| + |d| ≤ 709 → doubleFermiDirac d x + doubleFermiDirac d (-x) = 1) := by
  obtain ⟨a1, a2, a3, _⟩ := C35_fermi_dirac (x - d)
  obtain ⟨b1, b2, b3, _⟩ := C35_fermi_dirac (x + d)
  unfold doubleFermiDirac
  refine ⟨by linarith, by linarith, ?_, ?_⟩
  · intro y h
    have h1 := a3 (y - d) (by linarith)
    have h2 := b3 (y + d) (by linarith)
    linarith
  · intro h
    have h1 := C35_fermi_dirac_symm_partial (x - d) ((abs_sub x d).trans h)
    have h2 := C35_fermi_dirac_symm_partial (x + d) ((abs_add_le x d).trans h)
    rw [show -(x - d) = -x + d by ring] at h1
    rw [show -(x + d) = -x - d by ring] at h2
    linarith

/-- C35 (two Fermi functions; partial: not at zero): between zero and one and symmetric where the guards do
not act. -/
theorem C35_two_fermi_dirac_partial (d x : ℝ) (hx : x ≠ 0) (h : |x| + |d| ≤ 709) :
    0 < twoFermiDirac d x ∧ twoFermiDirac d x < 1 ∧ twoFermiDirac d x + twoFermiDirac d (-x) = 1 := by
  unfold twoFermiDirac
  obtain ⟨a1, a2, _⟩ := C35_fermi_dirac (x + twoDx d x)
  refine ⟨a1, a2, ?_⟩
  have hd : |twoDx d x| = |d| := by
    unfold twoDx twoDy
    split
    · congr 1
      ring
    · rw [mul_zero, zero_sub, abs_neg]
  have e : -x + twoDx d (-x) = -(x + twoDx d x) := by
    unfold twoDx twoDy
    rcases lt_or_gt_of_ne hx with h | h
    · rw [if_pos h, if_neg (by linarith)]
      ring
    · rw [if_pos (by linarith : -x < 0), if_neg (by linarith : ¬ x < 0)]
      ring
  rw [e]
  apply C35_fermi_dirac_symm_partial
  have := abs_add_le x (twoDx d x)
  linarith

example : ((-1 : ℝ)) ≠ 0 ∧ |(-1 : ℝ)| + |(2 : ℝ)| ≤ 709 := by norm_num

/-- C35 is violated for two Fermi functions: they are not monotonic (the value jumps up at zero) and not
symmetric at zero. -/
theorem C35_two_fermi_dirac_violated :
    twoFermiDirac 1 (-1) < twoFermiDirac 1 0 ∧ twoFermiDirac 1 0 + twoFermiDirac 1 (-0) ≠ 1 := by
  have h0 : twoFermiDirac 1 0 = fermi (-1) := by
    unfold twoFermiDirac twoDx twoDy
    rw [if_neg (lt_irrefl _), fermiDirac_eq _ (by unfold xmax; norm_num)]
    norm_num
  have h1 : twoFermiDirac 1 (-1) = fermi 0 := by
    unfold twoFermiDirac twoDx twoDy
    rw [if_pos (by norm_num), fermiDirac_eq _ (by unfold xmax; norm_num)]
    norm_num
  have hl := fermi_smoothStep.anti (show (-1 : ℝ) < 0 by norm_num)
  have hz : fermi 0 = 1 / 2 := by
    unfold fermi
    norm_num
  rw [neg_zero, h0, h1]
  refine ⟨hl, ?_⟩
  rw [hz] at hl
  intro h
  linarith

/-! ### Methfessel-Paxton -/

theorem Hp_neg (n : Nat) (x : ℝ) :
    Hp n (-x) = (-1) ^ n * Hp n x ∧ Hp (n + 1) (-x) = (-1) ^ (n + 1) * Hp (n + 1) x := by
  induction n with
  | zero => simp [Hp]
  | succ n ih =>
    refine ⟨ih.2, ?_⟩
    rw [Hp, ih.1, ih.2, Hp]
    ring

theorem Hp_poly (n : Nat) : ∃ P Q : Polynomial ℝ, (∀ x, Hp n x = P.eval x) ∧ ∀ x, Hp (n + 1) x = Q.eval x := by
  induction n with
  | zero => exact ⟨1, 2 * Polynomial.X, by simp [Hp], by simp [Hp]⟩
  | succ n ih =>
    obtain ⟨P, Q, hP, hQ⟩ := ih
    refine ⟨Q, 2 * Polynomial.X * Q - Polynomial.C (2 * ((n : ℝ) + 1)) * P, hQ, ?_⟩
    intro x
    rw [Hp, hP, hQ]
    simp

theorem Hp_gauss_tendsto (n : Nat) : Tendsto (fun x => Hp n x * gaussDelta x) atTop (𝓝 0) := by
  obtain ⟨P, _, hP, _⟩ := Hp_poly n
  have h := (Polynomial.tendsto_div_exp_atTop P).abs
  rw [abs_zero] at h
  have h' := h.div_const (Real.sqrt Real.pi)
  rw [zero_div] at h'
  apply squeeze_zero_norm' _ h'
  filter_upwards [eventually_ge_atTop 1] with x hx
  unfold gaussDelta
  rw [Real.norm_eq_abs, hP, ← mul_div_assoc, abs_div, abs_of_pos sqrt_pi_pos]
  apply div_le_div_of_nonneg_right _ sqrt_pi_pos.le
  rw [abs_mul, abs_div, abs_of_pos (Real.exp_pos _), abs_of_pos (Real.exp_pos _), div_eq_mul_inv, ← Real.exp_neg]
  apply mul_le_mul_of_nonneg_left _ (abs_nonneg _)
  apply Real.exp_le_exp.2
  nlinarith

theorem mpStep_symm (N : Nat) (x : ℝ) : mpStep N x + mpStep N (-x) = 1 := by
  unfold mpStep
  have hs : ∑ n ∈ Finset.range N, mpA (n + 1) * (Hp (2 * n + 1) (-x) * gaussDelta (-x)) =
      -∑ n ∈ Finset.range N, mpA (n + 1) * (Hp (2 * n + 1) x * gaussDelta x) := by
    rw [← Finset.sum_neg_distrib]
    apply Finset.sum_congr rfl
    intro n _
    rw [(Hp_neg (2 * n + 1) x).1]
    have : gaussDelta (-x) = gaussDelta x := by
      unfold gaussDelta
      ring_nf
    rw [this, pow_succ, pow_mul]
    simp
  rw [hs]
  linarith [C35_gauss.symm x]

/-- C35 (Methfessel-Paxton). Up to order 50, the values are defined, symmetric, and tend to one and zero. -/
theorem C35_methfessel_paxton (N : Nat) (hN : N ≤ 50) :
    ∃ f : ℝ → ℝ, (∀ x, methfesselPaxton N x = some (f x)) ∧ (∀ x, f x + f (-x) = 1) ∧
      Tendsto f atTop (𝓝 0) ∧ Tendsto f atBot (𝓝 1) := by
  have ht : Tendsto (mpStep N) atTop (𝓝 0) := by
    have h := C35_gauss.top.add (tendsto_finsetSum (Finset.range N) fun n _ =>
      (Hp_gauss_tendsto (2 * n + 1)).const_mul (mpA (n + 1)))
    unfold mpStep
    simpa using h
  refine ⟨mpStep N, ?_, mpStep_symm N, ht, ?_⟩
  · intro x
    rw [(mp_eq N x).1, if_pos (by omega)]
  · have : mpStep N = fun x => 1 - mpStep N (-x) := by
      funext x
      linarith [mpStep_symm N x]
    rw [this]
    have h := (ht.comp tendsto_neg_atBot_atTop).const_sub 1
    simpa [Function.comp] using h

example := C35_methfessel_paxton 3 (by norm_num)

/-! ### Marzari-Vanderbilt -/

/-- C35 (Marzari-Vanderbilt): tends to one and zero. -/
theorem C35_marzari_vanderbilt :
    Tendsto marzariVanderbilt atTop (𝓝 0) ∧ Tendsto marzariVanderbilt atBot (𝓝 1) := by
  have hg0 : Tendsto gaussDelta atTop (𝓝 0) := by
    have := Hp_gauss_tendsto 0
    simpa [Hp] using this
  have hgb : Tendsto gaussDelta atBot (𝓝 0) := by
    have e : gaussDelta = fun x => gaussDelta (-x) := by
      funext x
      unfold gaussDelta
      ring_nf
    rw [e]
    exact hg0.comp tendsto_neg_atBot_atTop
  have e : marzariVanderbilt = fun x => gauss (x + 1 / Real.sqrt 2) + gaussDelta (x + 1 / Real.sqrt 2) / Real.sqrt 2 := by
    funext x
    unfold marzariVanderbilt gauss gaussDelta
    simp only
    rw [sqrt_two_pi, div_div, mul_comm (Real.sqrt 2)]
  rw [e]
  constructor
  · have h1 : Tendsto (fun x : ℝ => x + 1 / Real.sqrt 2) atTop atTop :=
      tendsto_atTop_add_const_right _ _ tendsto_id
    have h := (C35_gauss.top.comp h1).add ((hg0.comp h1).div_const (Real.sqrt 2))
    simpa [Function.comp] using h
  · have h1 : Tendsto (fun x : ℝ => x + 1 / Real.sqrt 2) atBot atBot :=
      tendsto_atBot_add_const_right _ _ tendsto_id
    have h := (C35_gauss.bot.comp h1).add ((hgb.comp h1).div_const (Real.sqrt 2))
    simpa [Function.comp] using h

/-! ### Matsubara -/

theorem inu_inv_re (n : Nat) (x : ℝ) :
    ((inu n - (x : ℂ)) ^ (-1 : ℤ)).re = -(x / (((2 * n + 1) * Real.pi) ^ 2 + x ^ 2)) := by
  have e : inu n - (x : ℂ) = ((-x : ℝ) : ℂ) + (((2 * n + 1) * Real.pi : ℝ) : ℂ) * Complex.I := by
    unfold inu
    push_cast
    ring
  rw [zpow_neg_one, e, Complex.inv_re, Complex.normSq_add_mul_I]
  simp only [Complex.add_re, Complex.ofReal_re, Complex.mul_re, Complex.I_re, Complex.ofReal_im, Complex.I_im,
    mul_zero, zero_mul, sub_zero, add_zero]
  rw [neg_div]
  congr 2
  ring

theorem matsubara_eq (nmats : Nat) (x : ℝ) :
    matsubara nmats x = 1 / 2 - ∑ n ∈ Finset.range nmats, 2 * x / (((2 * n + 1) * Real.pi) ^ 2 + x ^ 2) := by
  unfold matsubara
  rw [Complex.re_sum, Finset.sum_congr rfl fun n _ => inu_inv_re n x, Finset.mul_sum, sub_eq_add_neg,
    ← Finset.sum_neg_distrib]
  congr 1
  · norm_num
  · apply Finset.sum_congr rfl
    intro n _
    ring

/-- C35 (Matsubara): symmetric and falling around zero. -/
theorem C35_matsubara (nmats : Nat) (x : ℝ) :
    matsubara nmats x + matsubara nmats (-x) = 1 ∧
    (0 ≤ x → matsubara nmats x ≤ 1 / 2) ∧ (x ≤ 0 → 1 / 2 ≤ matsubara nmats x) := by
  have hs : matsubara nmats x + matsubara nmats (-x) = 1 := by
    rw [matsubara_eq, matsubara_eq]
    have : ∑ n ∈ Finset.range nmats, 2 * -x / (((2 * (n : ℝ) + 1) * Real.pi) ^ 2 + (-x) ^ 2) =
        -∑ n ∈ Finset.range nmats, 2 * x / (((2 * (n : ℝ) + 1) * Real.pi) ^ 2 + x ^ 2) := by
      rw [← Finset.sum_neg_distrib]
      apply Finset.sum_congr rfl
      intro n _
      rw [neg_sq]
      ring
    rw [this]
    ring
  refine ⟨hs, ?_, ?_⟩
  · intro h
    rw [matsubara_eq]
    have : 0 ≤ ∑ n ∈ Finset.range nmats, 2 * x / (((2 * (n : ℝ) + 1) * Real.pi) ^ 2 + x ^ 2) :=
      Finset.sum_nonneg fun n _ => by positivity
    linarith
  · intro h
    rw [matsubara_eq]
    have : ∑ n ∈ Finset.range nmats, 2 * x / (((2 * (n : ℝ) + 1) * Real.pi) ^ 2 + x ^ 2) ≤ 0 :=
      Finset.sum_nonpos fun n _ => div_nonpos_of_nonpos_of_nonneg (by linarith) (by positivity)
    linarith

example := C35_matsubara 10 (-2)

open scoped Real in
theorem coth_tendsto (x : ℝ) (hx : x ≠ 0) :
    Tendsto (fun N : ℕ => ∑ j ∈ Finset.range N, 2 * x / (((j + 1) * Real.pi) ^ 2 + x ^ 2)) atTop
      (𝓝 (Real.cosh x / Real.sinh x - 1 / x)) := by
  have hpi : (Real.pi : ℂ) ≠ 0 := by exact_mod_cast Real.pi_pos.ne'
  have hxc : (x : ℂ) ≠ 0 := by exact_mod_cast hx
  have hz : (Complex.I * (x : ℂ) / (Real.pi : ℂ)) ∈ Complex.integerComplement := by
    rw [Complex.mem_integerComplement_iff]
    rintro ⟨n, hn⟩
    have h1 : ((n : ℝ) * Real.pi : ℝ) + ((-x : ℝ) : ℂ) * Complex.I = 0 := by
      push_cast
      rw [eq_div_iff hpi] at hn
      linear_combination hn
    have h2 := congrArg Complex.im h1
    simp at h2
    exact hx h2
  have h := tendsto_logDeriv_euler_cot_sub hz
  have h' := (h.const_mul (Complex.I / (Real.pi : ℂ)))
  have h2 := (Complex.continuous_re.tendsto _).comp h'
  refine (h2.congr ?_).trans ?_
  · intro N
    simp only [Function.comp]
    rw [Finset.mul_sum, Complex.re_sum]
    apply Finset.sum_congr rfl
    intro j _
    rw [cotTerm_identity hz]
    have hd : (((j : ℂ) + 1) * (Real.pi : ℂ)) ^ 2 + (x : ℂ) ^ 2 ≠ 0 := by
      have : (0 : ℝ) < ((j + 1) * Real.pi) ^ 2 + x ^ 2 := by positivity
      exact_mod_cast this.ne'
    have e : Complex.I / (Real.pi : ℂ) * (2 * (Complex.I * (x : ℂ) / (Real.pi : ℂ)) *
        (1 / ((Complex.I * (x : ℂ) / (Real.pi : ℂ) + ((j : ℂ) + 1)) *
          (Complex.I * (x : ℂ) / (Real.pi : ℂ) - ((j : ℂ) + 1))))) =
        ((2 * x / (((j + 1) * Real.pi) ^ 2 + x ^ 2) : ℝ) : ℂ) := by
      have e1 : (Complex.I * (x : ℂ) / (Real.pi : ℂ) + ((j : ℂ) + 1)) *
          (Complex.I * (x : ℂ) / (Real.pi : ℂ) - ((j : ℂ) + 1)) =
          -((((j : ℂ) + 1) * (Real.pi : ℂ)) ^ 2 + (x : ℂ) ^ 2) / (Real.pi : ℂ) ^ 2 := by
        field_simp
        linear_combination ((x : ℂ) ^ 2) * Complex.I_sq
      rw [e1]
      push_cast
      generalize (((j : ℂ) + 1) * (Real.pi : ℂ)) ^ 2 + (x : ℂ) ^ 2 = D at hd ⊢
      have e2 : Complex.I / (Real.pi : ℂ) * (2 * (Complex.I * (x : ℂ) / (Real.pi : ℂ)) *
          (1 / (-D / (Real.pi : ℂ) ^ 2))) = -(Complex.I ^ 2) * (2 * (x : ℂ) / D) := by
        field_simp
      rw [e2, Complex.I_sq, neg_neg, one_mul]
    rw [e, Complex.ofReal_re]
  · apply le_of_eq
    congr 1
    have e0 : (Real.pi : ℂ) * (Complex.I * (x : ℂ) / (Real.pi : ℂ)) = (x : ℂ) * Complex.I := by
      field_simp
    have hs : Complex.sinh (x : ℂ) ≠ 0 := by
      have : Real.sinh x ≠ 0 := fun h => hx (Real.sinh_eq_zero.1 h)
      exact_mod_cast this
    have e : Complex.I / (Real.pi : ℂ) * ((Real.pi : ℂ) * Complex.cot ((Real.pi : ℂ) *
        (Complex.I * (x : ℂ) / (Real.pi : ℂ))) - 1 / (Complex.I * (x : ℂ) / (Real.pi : ℂ))) =
        ((Real.cosh x / Real.sinh x - 1 / x : ℝ) : ℂ) := by
      rw [e0, Complex.cot, Complex.cos_mul_I, Complex.sin_mul_I]
      push_cast
      have hI := Complex.I_ne_zero
      field_simp
    rw [e, Complex.ofReal_re]

/-- C35 (Matsubara): with increasing number of frequencies, the Matsubara sums converge to the Fermi function. -/
theorem C35_matsubara_limit (x : ℝ) : Tendsto (fun nmats => matsubara nmats x) atTop (𝓝 (fermi x)) := by
  rcases eq_or_ne x 0 with rfl | hx
  · have : ∀ n, matsubara n 0 = fermi 0 := by
      intro n
      rw [matsubara_eq]
      simp [fermi]
      norm_num
    simp [this]
  have h1 := (coth_tendsto x hx).comp (tendsto_id.const_mul_atTop' (show 0 < 2 by norm_num))
  have h2 := (coth_tendsto (x / 2) (div_ne_zero hx two_ne_zero)).const_mul (1 / 2)
  have h := (h1.sub h2).const_sub (1 / 2)
  refine (h.congr ?_).trans ?_
  · intro N
    rw [matsubara_eq]
    congr 1
    simp only [Function.comp, id]
    rw [Finset.mul_sum]
    induction N with
    | zero => simp
    | succ N ih =>
      rw [show 2 * (N + 1) = 2 * N + 1 + 1 by ring, Finset.sum_range_succ, Finset.sum_range_succ,
        Finset.sum_range_succ _ N, Finset.sum_range_succ _ N, ← ih]
      have e : 2 * x / ((((2 * N + 1 : ℕ) + 1 : ℝ) * Real.pi) ^ 2 + x ^ 2) =
          1 / 2 * (2 * (x / 2) / (((N + 1) * Real.pi) ^ 2 + (x / 2) ^ 2)) := by
        have a : (0 : ℝ) < ((N + 1) * Real.pi) ^ 2 + (x / 2) ^ 2 := by positivity
        have b : ((((2 * N + 1 : ℕ) + 1 : ℝ) * Real.pi) ^ 2 + x ^ 2) =
          4 * (((N + 1) * Real.pi) ^ 2 + (x / 2) ^ 2) := by
          push_cast
          ring
        rw [b]
        field_simp
        ring
      rw [e]
      push_cast
      ring
  · apply le_of_eq
    congr 1
    have hs : Real.sinh (x / 2) ≠ 0 := fun h => hx (by linarith [Real.sinh_eq_zero.1 h])
    have hc := Real.cosh_pos (x / 2)
    have e1 : Real.sinh x = 2 * Real.sinh (x / 2) * Real.cosh (x / 2) := by
      rw [← Real.sinh_two_mul]
      congr 1
      ring
    have e2 : Real.cosh x = Real.cosh (x / 2) ^ 2 + Real.sinh (x / 2) ^ 2 := by
      rw [← Real.cosh_two_mul]
      congr 1
      ring
    have e3 : fermi x = (Real.cosh (x / 2) - Real.sinh (x / 2)) / (2 * Real.cosh (x / 2)) := by
      unfold fermi
      rw [Real.cosh_sub_sinh, Real.cosh_eq, show Real.exp x = Real.exp (x / 2) * Real.exp (x / 2) by
        rw [← Real.exp_add]; congr 1; ring, Real.exp_neg]
      have := Real.exp_pos (x / 2)
      field_simp
    rw [e1, e2, e3]
    field_simp
    ring

example := C35_matsubara_limit (-2)

end Verif.Occ
