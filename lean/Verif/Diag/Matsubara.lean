import Mathlib.Analysis.SpecialFunctions.Trigonometric.Cotangent
import Mathlib.NumberTheory.ZetaValues
import Mathlib.Analysis.SpecialFunctions.Trigonometric.Arctan
import Verif.Diag.Mesh
import Verif.Diag.SelfEnergy
import Verif.Diag.Potential

/-!
# Lindhard bubble from Green's functions on the Matsubara axis (C93)
-/

namespace Verif.Diag

open Complex Filter Topology

/-- `nu = (2 * np.arange(nmats) + 1) * np.pi * kT`, `elphmod/diagrams.py` 118, 578. -/
noncomputable def matsubara (kT : ℝ) (i : Nat) : ℝ := (2 * (i : ℝ) + 1) * Real.pi * kT

/-- `Delta = -2j * hyb_height * np.arctan(2 * hyb_width / nu)`, `elphmod/diagrams.py` 120, 580. -/
noncomputable def hybridization (width height nu : ℝ) : ℂ := -2 * I * (height : ℂ) * (Real.arctan (2 * width / nu) : ℂ)

/-- `1 / (1j * nu[i] - e - Delta[i])`, `elphmod/diagrams.py` 122-125, 582-585. -/
noncomputable def green (width height nu e : ℝ) : ℂ := 1 / (I * (nu : ℂ) - (e : ℂ) - hybridization width height nu)

section
variable {n : Nat} [NeZero n]

/-- `elphmod/diagrams.py` 73-145 (`susceptibility2`), the returned function at `(q1, q2)`. -/
noncomputable def susceptibility2 (e : Mesh n n 1 → ℝ) (kT : ℝ) (nmats : Nat) (width height : ℝ) (q1 q2 : ℝ) : ℂ :=
  let prefactor : ℝ := 4 * kT / (n : ℝ) ^ 2
  let tail : ℝ := -2 / (4 * kT) + prefactor * (n : ℝ) ^ 2 * ∑ i ∈ Finset.range nmats, 1 / matsubara kT i ^ 2
  let q := (qIndex n q1, qIndex n q2, 0)
  (prefactor : ℂ) * (∑ i ∈ Finset.range nmats, ∑ k,
    green width height (matsubara kT i) (e k) * slice (fun k => green width height (matsubara kT i) (e k)) q k) + (tail : ℂ)

/-- `elphmod/diagrams.py` 565-611 (`phonon_self_energy2`) for one `q` point and mode (the distribution among processes is that of
`phonon_self_energy`; the check of the memory limit is left out). -/
noncomputable def phononSelfEnergy2 (e : Mesh n n 1 → ℝ) (g2 : Mesh n n 1 → ℝ) (kT : ℝ) (nmats : Nat) (width height : ℝ)
    (q1 q2 : ℝ) : ℝ :=
  let prefactor : ℝ := kT * 4 / (n : ℝ) ^ 2
  let tail : ℝ := -2 / (4 * kT) / (n : ℝ) ^ 2 + prefactor * ∑ i ∈ Finset.range nmats, 1 / matsubara kT i ^ 2
  let q := (qIndex n q1, qIndex n q2, 0)
  ∑ k, g2 k * (prefactor * (∑ i ∈ Finset.range nmats,
    green width height (matsubara kT i) (e k) * slice (fun k => green width height (matsubara kT i) (e k)) q k).re + tail)

end

/-! ## Series of hyperbolic tangent -/

theorem it_mem {t : ℝ} (ht : t ≠ 0) : I * (t : ℂ) ∈ integerComplement := by
  rintro ⟨m, hm⟩
  have := congrArg Complex.im hm
  simp at this
  exact ht this.symm

theorem cot_diff (a : ℝ) (ha : a ≠ 0) :
    Complex.cot ((2 * a : ℝ) * I) - 1 / 2 * Complex.cot ((a : ℂ) * I) = - I * ((Real.tanh a / 2 : ℝ) : ℂ) := by
  have hs : Real.sinh a ≠ 0 := by
    rwa [Ne, Real.sinh_eq_zero]
  have hc : Real.cosh a ≠ 0 := (Real.cosh_pos a).ne'
  have hs' : (Real.sinh a : ℂ) ≠ 0 := Complex.ofReal_ne_zero.2 hs
  have hc' : (Real.cosh a : ℂ) ≠ 0 := Complex.ofReal_ne_zero.2 hc
  rw [Complex.cot, Complex.cot, Complex.cos_mul_I, Complex.sin_mul_I, Complex.cos_mul_I, Complex.sin_mul_I,
    ← Complex.ofReal_cosh, ← Complex.ofReal_sinh, ← Complex.ofReal_cosh, ← Complex.ofReal_sinh, Real.cosh_two_mul,
    Real.sinh_two_mul, Real.tanh_eq_sinh_div_cosh]
  push_cast
  have hI : I ≠ 0 := Complex.I_ne_zero
  rw [← Complex.ofReal_cosh, ← Complex.ofReal_sinh]
  field_simp
  rw [Complex.I_sq]
  ring

/-- Mittag-Leffler series of the hyperbolic tangent. -/
theorem hasSum_tanh (t : ℝ) : HasSum (fun n : ℕ => 2 * t / (t ^ 2 + (2 * (n : ℝ) + 1) ^ 2)) (Real.pi / 2 * Real.tanh (Real.pi * t / 2)) := by
  by_cases ht : t = 0
  · subst ht
    simp [hasSum_zero]
  have hx := it_mem ht
  have ht2 : t / 2 ≠ 0 := by
    intro h
    exact ht (by linarith)
  have hx2 := it_mem ht2
  have hsum := summable_cotTerm hx
  have hinj1 : Function.Injective fun k : ℕ => 2 * k := fun a b h => by simpa using h
  have hinj2 : Function.Injective fun k : ℕ => 2 * k + 1 := fun a b h => by simpa using h
  have hse : Summable fun k : ℕ => cotTerm (I * (t : ℂ)) (2 * k) := hsum.comp_injective hinj1
  have hso : Summable fun k : ℕ => cotTerm (I * (t : ℂ)) (2 * k + 1) := hsum.comp_injective hinj2
  have hsplit := tsum_even_add_odd hse hso
  have hodd : ∀ k : ℕ, cotTerm (I * (t : ℂ)) (2 * k + 1) = 1 / 2 * cotTerm (I * ((t / 2 : ℝ) : ℂ)) k := by
    intro k
    unfold cotTerm
    have e1 : I * (t : ℂ) - (((2 * k + 1 : ℕ) : ℂ) + 1) = 2 * (I * ((t / 2 : ℝ) : ℂ) - ((k : ℂ) + 1)) := by
      push_cast
      ring
    have e2 : I * (t : ℂ) + (((2 * k + 1 : ℕ) : ℂ) + 1) = 2 * (I * ((t / 2 : ℝ) : ℂ) + ((k : ℂ) + 1)) := by
      push_cast
      ring
    rw [e1, e2]
    simp only [one_div, mul_inv]
    ring
  have c1 : ∑' k, cotTerm (I * (t : ℂ)) k = Real.pi * cot (Real.pi * (I * (t : ℂ))) - 1 / (I * (t : ℂ)) := (cot_series_rep' hx).symm
  have c2 : ∑' k, cotTerm (I * ((t / 2 : ℝ) : ℂ)) k =
      Real.pi * cot (Real.pi * (I * ((t / 2 : ℝ) : ℂ))) - 1 / (I * ((t / 2 : ℝ) : ℂ)) := (cot_series_rep' hx2).symm
  have heven : ∑' k : ℕ, cotTerm (I * (t : ℂ)) (2 * k) = - I * ((Real.pi / 2 * Real.tanh (Real.pi * t / 2) : ℝ) : ℂ) := by
    simp only [hodd] at hsplit
    rw [tsum_mul_left, c1, c2] at hsplit
    have hd := cot_diff (Real.pi * t / 2) (by
      have := Real.pi_ne_zero
      positivity)
    have a1 : (((2 * (Real.pi * t / 2) : ℝ) : ℂ)) * I = Real.pi * (I * (t : ℂ)) := by
      push_cast
      ring
    have a2 : (((Real.pi * t / 2 : ℝ) : ℂ)) * I = Real.pi * (I * ((t / 2 : ℝ) : ℂ)) := by
      push_cast
      ring
    rw [a1, a2] at hd
    have hinv : (1 : ℂ) / (I * ((t / 2 : ℝ) : ℂ)) = 2 * (1 / (I * (t : ℂ))) := by
      have : (t : ℂ) ≠ 0 := Complex.ofReal_ne_zero.2 ht
      push_cast
      field_simp
    rw [hinv] at hsplit
    have hR : ((Real.pi / 2 * Real.tanh (Real.pi * t / 2) : ℝ) : ℂ) = (Real.pi : ℂ) * ((Real.tanh (Real.pi * t / 2) / 2 : ℝ) : ℂ) := by
      push_cast
      ring
    rw [hR]
    linear_combination hsplit + (Real.pi : ℂ) * hd
  have hre : HasSum (fun k : ℕ => (I * cotTerm (I * (t : ℂ)) (2 * k)).re) (I * (- I * ((Real.pi / 2 * Real.tanh (Real.pi * t / 2) : ℝ) : ℂ))).re := by
    rw [← heven]
    exact Complex.hasSum_re (hse.hasSum.mul_left I)
  have hterm : ∀ k : ℕ, (I * cotTerm (I * (t : ℂ)) (2 * k)).re = 2 * t / (t ^ 2 + (2 * (k : ℝ) + 1) ^ 2) := by
    intro k
    have hden : t ^ 2 + (2 * (k : ℝ) + 1) ^ 2 ≠ 0 := by positivity
    have : I * cotTerm (I * (t : ℂ)) (2 * k) = ((2 * t / (t ^ 2 + (2 * (k : ℝ) + 1) ^ 2) : ℝ) : ℂ) := by
      rw [cotTerm_identity hx]
      have hprod : (I * (t : ℂ) + (((2 * k : ℕ) : ℂ) + 1)) * (I * (t : ℂ) - (((2 * k : ℕ) : ℂ) + 1)) =
          ((-(t ^ 2 + (2 * (k : ℝ) + 1) ^ 2) : ℝ) : ℂ) := by
        push_cast
        linear_combination (t : ℂ) ^ 2 * Complex.I_sq
      rw [hprod]
      push_cast
      have hden' : (t : ℂ) ^ 2 + (2 * (k : ℂ) + 1) ^ 2 ≠ 0 := by
        have := Complex.ofReal_ne_zero.2 hden
        push_cast at this
        exact this
      rw [one_div_neg_eq_neg_one_div]
      field_simp
      linear_combination -(t : ℂ) * Complex.I_sq
    rw [this, Complex.ofReal_re]
  simp only [hterm] at hre
  have hval : (I * (- I * ((Real.pi / 2 * Real.tanh (Real.pi * t / 2) : ℝ) : ℂ))).re = Real.pi / 2 * Real.tanh (Real.pi * t / 2) := by
    have : I * (- I * ((Real.pi / 2 * Real.tanh (Real.pi * t / 2) : ℝ) : ℂ)) = ((Real.pi / 2 * Real.tanh (Real.pi * t / 2) : ℝ) : ℂ) := by
      linear_combination -((Real.pi / 2 * Real.tanh (Real.pi * t / 2) : ℝ) : ℂ) * Complex.I_sq
    rw [this, Complex.ofReal_re]
  rwa [hval] at hre

theorem fd_tanh (x : ℝ) : fd x = 1 / 2 - Real.tanh (x / 2) / 2 := by
  unfold fd
  rw [Real.tanh_eq_sinh_div_cosh, Real.sinh_eq, Real.cosh_eq]
  have h : Real.exp x = Real.exp (x / 2) * Real.exp (x / 2) := by
    rw [← Real.exp_add]
    congr 1
    ring
  have h' : Real.exp (-(x / 2)) = 1 / Real.exp (x / 2) := by
    rw [Real.exp_neg, one_div]
  rw [h, h']
  have := Real.exp_pos (x / 2)
  have h0 : Real.exp (x / 2) ≠ 0 := this.ne'
  have h1 : Real.exp (x / 2) * Real.exp (x / 2) + 1 ≠ 0 := by positivity
  field_simp
  ring

/-- Fermi function as a sum over Matsubara frequencies. -/
theorem hasSum_fermi (kT : ℝ) (hkT : 0 < kT) (e : ℝ) :
    HasSum (fun i => 2 * kT * (e / (matsubara kT i ^ 2 + e ^ 2))) (1 / 2 - fd (e / kT)) := by
  have hpi := Real.pi_pos
  have h := (hasSum_tanh (e / (Real.pi * kT))).mul_left (1 / Real.pi)
  have hv : 1 / Real.pi * (Real.pi / 2 * Real.tanh (Real.pi * (e / (Real.pi * kT)) / 2)) = 1 / 2 - fd (e / kT) := by
    rw [fd_tanh]
    have : Real.pi * (e / (Real.pi * kT)) / 2 = e / kT / 2 := by field_simp
    rw [this]
    field_simp
    ring
  rw [hv] at h
  refine h.congr_fun ?_
  intro i
  unfold matsubara
  have h1 : (e / (Real.pi * kT)) ^ 2 + (2 * (i : ℝ) + 1) ^ 2 = (((2 * (i : ℝ) + 1) * Real.pi * kT) ^ 2 + e ^ 2) / (Real.pi * kT) ^ 2 := by
    field_simp
    ring
  rw [h1]
  have h2 : ((2 * (i : ℝ) + 1) * Real.pi * kT) ^ 2 + e ^ 2 ≠ 0 := by positivity
  field_simp

/-! ## Bubble -/

/-- Without hybridization, the real part of the product of two Green's functions. -/
theorem green_re (w nu a b : ℝ) (hnu : nu ≠ 0) :
    (green w 0 nu a * green w 0 nu b).re = (a * b - nu ^ 2) / ((nu ^ 2 + a ^ 2) * (nu ^ 2 + b ^ 2)) := by
  have hp : ∀ x : ℝ, nu ^ 2 + x ^ 2 ≠ 0 := fun x => by positivity
  have hg : ∀ x : ℝ, green w 0 nu x = ((-x / (nu ^ 2 + x ^ 2) : ℝ) : ℂ) + ((-nu / (nu ^ 2 + x ^ 2) : ℝ) : ℂ) * I := by
    intro x
    unfold green hybridization
    have hx : (nu : ℂ) ^ 2 + (x : ℂ) ^ 2 ≠ 0 := by
      have := Complex.ofReal_ne_zero.2 (hp x)
      push_cast at this
      exact this
    have hd : I * (nu : ℂ) - (x : ℂ) - -2 * I * ((0 : ℝ) : ℂ) * (Real.arctan (2 * w / nu) : ℂ) ≠ 0 := by
      intro h
      have := congrArg Complex.im h
      simp at this
      exact hnu this
    rw [div_eq_iff hd]
    push_cast
    field_simp
    linear_combination (nu : ℂ) ^ 2 * Complex.I_sq
  have hre : ∀ x y u v : ℝ, (((x : ℂ) + (y : ℂ) * I) * ((u : ℂ) + (v : ℂ) * I)).re = x * u - y * v := by
    intro x y u v
    simp
  rw [hg, hg, hre]
  have ha := hp a
  have hb := hp b
  field_simp

theorem green_norm (w nu a b : ℝ) (hnu : 0 < nu) : ‖(green w 0 nu a * green w 0 nu b).re‖ ≤ 1 / nu ^ 2 := by
  have hg : ∀ x : ℝ, ‖green w 0 nu x‖ ≤ 1 / nu := by
    intro x
    unfold green
    rw [norm_div, norm_one]
    apply one_div_le_one_div_of_le hnu
    have := Complex.abs_im_le_norm (I * (nu : ℂ) - (x : ℂ) - hybridization w 0 nu)
    have him : (I * (nu : ℂ) - (x : ℂ) - hybridization w 0 nu).im = nu := by
      simp [hybridization]
    rw [him, abs_of_pos hnu] at this
    exact this
  calc ‖(green w 0 nu a * green w 0 nu b).re‖ ≤ ‖green w 0 nu a * green w 0 nu b‖ := Complex.abs_re_le_norm _
    _ = ‖green w 0 nu a‖ * ‖green w 0 nu b‖ := norm_mul _ _
    _ ≤ 1 / nu * (1 / nu) := mul_le_mul (hg a) (hg b) (norm_nonneg _) (by positivity)
    _ = 1 / nu ^ 2 := by field_simp

theorem matsubara_pos (kT : ℝ) (hkT : 0 < kT) (i : Nat) : 0 < matsubara kT i := by
  unfold matsubara
  have := Real.pi_pos
  positivity

/-- `∑ 1 / nu ^ 2`. -/
theorem hasSum_tail (kT : ℝ) (hkT : 0 < kT) : HasSum (fun i => 1 / matsubara kT i ^ 2) (1 / (8 * kT ^ 2)) := by
  have hpi := Real.pi_pos
  have hz := hasSum_zeta_two
  have hinj1 : Function.Injective fun k : ℕ => 2 * k := fun a b h => by simpa using h
  have hinj2 : Function.Injective fun k : ℕ => 2 * k + 1 := fun a b h => by simpa using h
  have he := hz.summable.comp_injective hinj1
  have ho := hz.summable.comp_injective hinj2
  have hs := tsum_even_add_odd (f := fun n : ℕ => (1 : ℝ) / (n : ℝ) ^ 2) he ho
  rw [hz.tsum_eq] at hs
  have heven : ∑' k : ℕ, (1 : ℝ) / ((2 * k : ℕ) : ℝ) ^ 2 = 1 / 4 * (Real.pi ^ 2 / 6) := by
    rw [← hz.tsum_eq, ← tsum_mul_left]
    congr 1
    funext k
    push_cast
    rw [mul_pow]
    ring
  rw [heven] at hs
  have hodd : ∑' k : ℕ, (1 : ℝ) / ((2 * k + 1 : ℕ) : ℝ) ^ 2 = Real.pi ^ 2 / 8 := by linarith
  have h := (ho.hasSum).mul_left (1 / (Real.pi * kT) ^ 2)
  have ho' : ∑' b : ℕ, ((fun n : ℕ => (1 : ℝ) / (n : ℝ) ^ 2) ∘ fun k : ℕ => 2 * k + 1) b = Real.pi ^ 2 / 8 := hodd
  rw [ho'] at h
  have hv : 1 / (Real.pi * kT) ^ 2 * (Real.pi ^ 2 / 8) = 1 / (8 * kT ^ 2) := by
    field_simp
  rw [hv] at h
  refine h.congr_fun ?_
  intro i
  unfold matsubara
  simp only [Function.comp]
  push_cast
  field_simp

theorem hasSum_bubble_ne (w kT : ℝ) (hkT : 0 < kT) (a b : ℝ) (hab : b ≠ a) :
    HasSum (fun i => 2 * kT * (green w 0 (matsubara kT i) a * green w 0 (matsubara kT i) b).re) (quotient kT fd a b) := by
  have h := ((hasSum_fermi kT hkT a).sub (hasSum_fermi kT hkT b)).mul_left (1 / (b - a))
  have hba : b - a ≠ 0 := sub_ne_zero.2 hab
  have hv : 1 / (b - a) * ((1 / 2 - fd (a / kT)) - (1 / 2 - fd (b / kT))) = quotient kT fd a b := by
    unfold quotient
    rw [dslope_of_ne _ hab, slope_def_field]
    field_simp
    ring
  rw [hv] at h
  refine h.congr_fun ?_
  intro i
  have hnu := matsubara_pos kT hkT i
  rw [green_re w _ a b hnu.ne']
  have ha : matsubara kT i ^ 2 + a ^ 2 ≠ 0 := by positivity
  have hb : matsubara kT i ^ 2 + b ^ 2 ≠ 0 := by positivity
  field_simp
  ring

/-- The sum over all Matsubara frequencies is the difference quotient of the Fermi function, including the limit of equal
energies. -/
theorem hasSum_bubble (w kT : ℝ) (hkT : 0 < kT) (a b : ℝ) :
    HasSum (fun i => 2 * kT * (green w 0 (matsubara kT i) a * green w 0 (matsubara kT i) b).re) (quotient kT fd a b) := by
  have hbound : ∀ i x, ‖2 * kT * (green w 0 (matsubara kT i) a * green w 0 (matsubara kT i) x).re‖ ≤
      2 * kT * (1 / matsubara kT i ^ 2) := by
    intro i x
    rw [norm_mul, Real.norm_of_nonneg (by positivity : 0 ≤ 2 * kT)]
    exact mul_le_mul_of_nonneg_left (green_norm w _ a x (matsubara_pos kT hkT i)) (by positivity)
  have hsb : Summable fun i => 2 * kT * (1 / matsubara kT i ^ 2) := (hasSum_tail kT hkT).summable.mul_left _
  have hsum : ∀ x, Summable fun i => 2 * kT * (green w 0 (matsubara kT i) a * green w 0 (matsubara kT i) x).re := fun x =>
    Summable.of_norm_bounded hsb fun i => hbound i x
  have hcont : Continuous fun x => ∑' i, 2 * kT * (green w 0 (matsubara kT i) a * green w 0 (matsubara kT i) x).re := by
    refine continuous_tsum ?_ hsb hbound
    intro i
    have hnu := matsubara_pos kT hkT i
    have : (fun x => 2 * kT * (green w 0 (matsubara kT i) a * green w 0 (matsubara kT i) x).re) = fun x =>
        2 * kT * ((a * x - matsubara kT i ^ 2) / ((matsubara kT i ^ 2 + a ^ 2) * (matsubara kT i ^ 2 + x ^ 2))) := by
      funext x
      rw [green_re w _ a x hnu.ne']
    rw [this]
    refine continuous_const.mul (Continuous.div (by fun_prop) (by fun_prop) fun x => ?_)
    positivity
  have hdiff : DifferentiableAt ℝ (fun x => fd (x / kT)) a := (occ_hasDerivAt kT fd fdDelta fd_deriv a).differentiableAt
  have hq : ContinuousAt (quotient kT fd a) a := continuousAt_dslope_same.2 hdiff
  have hval : ∑' i, 2 * kT * (green w 0 (matsubara kT i) a * green w 0 (matsubara kT i) b).re = quotient kT fd a b := by
    by_cases hab : b = a
    · subst hab
      have h1 := (hcont.tendsto b).mono_left (nhdsWithin_le_nhds (s := {b}ᶜ))
      have h2 := hq.tendsto.mono_left (nhdsWithin_le_nhds (s := {b}ᶜ))
      have h3 : Tendsto (fun x => ∑' i, 2 * kT * (green w 0 (matsubara kT i) b * green w 0 (matsubara kT i) x).re) (𝓝[≠] b)
          (𝓝 (quotient kT fd b b)) := by
        refine h2.congr' ?_
        filter_upwards [self_mem_nhdsWithin] with x hx
        exact (hasSum_bubble_ne w kT hkT b x hx).tsum_eq.symm
      exact tendsto_nhds_unique h1 h3
    · exact (hasSum_bubble_ne w kT hkT a b hab).tsum_eq
  rw [← hval]
  exact (hsum b).hasSum

section
variable {n : Nat} [NeZero n]

/-- C93 (missing: the imaginary part, see `C93_violated`): without hybridization, the real part of the result of `susceptibility2`
converges, with increasing number of Matsubara frequencies, to the static Lindhard bubble at any mesh point, including degenerate
energies and `q = 0`. -/
theorem C93_limit_partial (e : Mesh n n 1 → ℝ) (kT : ℝ) (hkT : 0 < kT) (width q1 q2 : ℝ) (j : Mesh n n 1)
    (hq : OnMesh (vec2 q1 q2) j) :
    Tendsto (fun nmats => (susceptibility2 e kT nmats width 0 q1 q2).re) atTop
      (𝓝 (2 / (n : ℝ) ^ 2 * ∑ k, dslope (fun x => 1 / (Real.exp (x / kT) + 1)) (e k) (e (k + j)))) := by
  have hn : (n : ℝ) ≠ 0 := Nat.cast_ne_zero.2 (NeZero.ne n)
  have hi := onMesh_indices q1 q2 j hq
  have hform : ∀ N, (susceptibility2 e kT N width 0 q1 q2).re = 2 / (n : ℝ) ^ 2 * ∑ k, (∑ i ∈ Finset.range N,
      2 * kT * (green width 0 (matsubara kT i) (e k) * green width 0 (matsubara kT i) (e (k + j))).re) +
      (-2 / (4 * kT) + 4 * kT * ∑ i ∈ Finset.range N, 1 / matsubara kT i ^ 2) := by
    intro N
    unfold susceptibility2
    simp only [hi, slice_mesh]
    rw [Complex.add_re, Complex.re_ofReal_mul, Complex.ofReal_re, Complex.re_sum]
    simp only [Complex.re_sum]
    rw [Finset.sum_comm]
    simp only [← Finset.mul_sum]
    field_simp
    ring
  have h1 : ∀ k, Tendsto (fun N => ∑ i ∈ Finset.range N,
      2 * kT * (green width 0 (matsubara kT i) (e k) * green width 0 (matsubara kT i) (e (k + j))).re) atTop
      (𝓝 (quotient kT fd (e k) (e (k + j)))) := fun k => (hasSum_bubble width kT hkT _ _).tendsto_sum_nat
  have h2 := (hasSum_tail kT hkT).tendsto_sum_nat
  have h3 := ((tendsto_finset_sum Finset.univ fun k _ => h1 k).const_mul (2 / (n : ℝ) ^ 2)).add
    ((h2.const_mul (4 * kT)).const_add (-2 / (4 * kT)))
  have hv : -2 / (4 * kT) + 4 * kT * (1 / (8 * kT ^ 2)) = 0 := by
    field_simp
    norm_num
  rw [hv, add_zero] at h3
  refine (h3.congr fun N => (hform N).symm)

/-- C93, phonon self-energy: without hybridization, the result of `phonon_self_energy2` converges to the static phonon self-energy of
a single band. -/
theorem C93_self_energy (e g2 : Mesh n n 1 → ℝ) (kT : ℝ) (hkT : 0 < kT) (width q1 q2 : ℝ) (j : Mesh n n 1)
    (hq : OnMesh (vec2 q1 q2) j) :
    Tendsto (fun nmats => phononSelfEnergy2 e g2 kT nmats width 0 q1 q2) atTop
      (𝓝 (2 / (n : ℝ) ^ 2 * ∑ k, g2 k * dslope (fun x => 1 / (Real.exp (x / kT) + 1)) (e k) (e (k + j)))) := by
  have hn : (n : ℝ) ≠ 0 := Nat.cast_ne_zero.2 (NeZero.ne n)
  have hi := onMesh_indices q1 q2 j hq
  have hform : ∀ N, phononSelfEnergy2 e g2 kT N width 0 q1 q2 = ∑ k, g2 k * (2 / (n : ℝ) ^ 2 * (∑ i ∈ Finset.range N,
      2 * kT * (green width 0 (matsubara kT i) (e k) * green width 0 (matsubara kT i) (e (k + j))).re) +
      1 / (n : ℝ) ^ 2 * (-2 / (4 * kT) + 4 * kT * ∑ i ∈ Finset.range N, 1 / matsubara kT i ^ 2)) := by
    intro N
    unfold phononSelfEnergy2
    simp only [hi, slice_mesh]
    refine Finset.sum_congr rfl fun k _ => ?_
    congr 1
    rw [Complex.re_sum]
    simp only [← Finset.mul_sum]
    field_simp
    ring
  have h1 : ∀ k, Tendsto (fun N => ∑ i ∈ Finset.range N,
      2 * kT * (green width 0 (matsubara kT i) (e k) * green width 0 (matsubara kT i) (e (k + j))).re) atTop
      (𝓝 (quotient kT fd (e k) (e (k + j)))) := fun k => (hasSum_bubble width kT hkT _ _).tendsto_sum_nat
  have h2 := (hasSum_tail kT hkT).tendsto_sum_nat
  have hv : -2 / (4 * kT) + 4 * kT * (1 / (8 * kT ^ 2)) = 0 := by
    field_simp
    norm_num
  have h2' := ((h2.const_mul (4 * kT)).const_add (-2 / (4 * kT))).const_mul (1 / (n : ℝ) ^ 2)
  rw [hv, mul_zero] at h2'
  have h3 := tendsto_finset_sum Finset.univ fun k (_ : k ∈ Finset.univ) =>
    (((h1 k).const_mul (2 / (n : ℝ) ^ 2)).add h2').const_mul (g2 k)
  refine (h3.congr fun N => (hform N).symm).trans (le_of_eq ?_)
  congr 1
  rw [Finset.mul_sum]
  refine Finset.sum_congr rfl fun k _ => ?_
  rw [add_zero]
  unfold quotient fd
  ring

/-- C93: with hybridization, the Green's function for a negative frequency is the complex conjugate, so that twice the real part
accounts for the frequencies of both signs. -/
theorem C93_negative (width height nu a b : ℝ) :
    2 * (green width height nu a * green width height nu b).re =
      (green width height nu a * green width height nu b).re + (green width height (-nu) a * green width height (-nu) b).re := by
  have hg : ∀ x, green width height (-nu) x = star (green width height nu x) := by
    intro x
    unfold green hybridization
    rw [div_neg, Real.arctan_neg]
    simp
    ring
  rw [hg, hg, ← star_mul', two_mul]
  rfl

/-- C93 does not hold for `susceptibility2`: the imaginary part, which would be canceled by the negative frequencies, is not
discarded; for a flat band away from the Fermi level, the result is never real. -/
theorem C93_violated (kT : ℝ) (hkT : 0 < kT) (E : ℝ) (hE : 0 < E) (nmats : Nat) (hm : 0 < nmats) (width q1 q2 : ℝ) :
    0 < (susceptibility2 (fun _ : Mesh n n 1 => E) kT nmats width 0 q1 q2).im := by
  have hn : (0 : ℝ) < n := Nat.cast_pos.2 (Nat.pos_of_ne_zero (NeZero.ne n))
  have him : ∀ nu : ℝ, 0 < nu → 0 < (green width 0 nu E * green width 0 nu E).im := by
    intro nu hnu
    have hp : nu ^ 2 + E ^ 2 ≠ 0 := by positivity
    have hg : green width 0 nu E = ((-E / (nu ^ 2 + E ^ 2) : ℝ) : ℂ) + ((-nu / (nu ^ 2 + E ^ 2) : ℝ) : ℂ) * I := by
      unfold green hybridization
      have hx : (nu : ℂ) ^ 2 + (E : ℂ) ^ 2 ≠ 0 := by
        have := Complex.ofReal_ne_zero.2 hp
        push_cast at this
        exact this
      have hd : I * (nu : ℂ) - (E : ℂ) - -2 * I * ((0 : ℝ) : ℂ) * (Real.arctan (2 * width / nu) : ℂ) ≠ 0 := by
        intro h
        have := congrArg Complex.im h
        simp at this
        exact hnu.ne' this
      rw [div_eq_iff hd]
      push_cast
      field_simp
      linear_combination (nu : ℂ) ^ 2 * Complex.I_sq
    rw [hg]
    have : (((-E / (nu ^ 2 + E ^ 2) : ℝ) : ℂ) + ((-nu / (nu ^ 2 + E ^ 2) : ℝ) : ℂ) * I) *
        (((-E / (nu ^ 2 + E ^ 2) : ℝ) : ℂ) + ((-nu / (nu ^ 2 + E ^ 2) : ℝ) : ℂ) * I) =
        (((E ^ 2 - nu ^ 2) / (nu ^ 2 + E ^ 2) ^ 2 : ℝ) : ℂ) + ((2 * E * nu / (nu ^ 2 + E ^ 2) ^ 2 : ℝ) : ℂ) * I := by
      have hx : (nu : ℂ) ^ 2 + (E : ℂ) ^ 2 ≠ 0 := by
        have := Complex.ofReal_ne_zero.2 hp
        push_cast at this
        exact this
      push_cast
      field_simp
      linear_combination (nu : ℂ) ^ 2 * Complex.I_sq
    rw [this, Complex.add_im, Complex.ofReal_im, Complex.im_ofReal_mul, Complex.I_im]
    have : 0 < 2 * E * nu / (nu ^ 2 + E ^ 2) ^ 2 := by positivity
    linarith
  unfold susceptibility2
  simp only [slice, tile]
  rw [Complex.add_im, Complex.ofReal_im, Complex.im_ofReal_mul, add_zero, Complex.im_sum]
  apply mul_pos (by positivity)
  refine Finset.sum_pos (fun i _ => ?_) ⟨0, Finset.mem_range.2 hm⟩
  rw [Complex.im_sum]
  refine Finset.sum_pos (fun k _ => him _ (matsubara_pos kT hkT i)) ?_
  exact ⟨0, Finset.mem_univ _⟩

end

/-- The hypotheses can be met at a point other than zero for a dispersion that is not flat. -/
example : OnMesh (vec2 Real.pi 0) ((1, 0, 0) : Mesh 2 2 1) ∧ (fun k : Mesh 2 2 1 => ((k.1 : ℕ) : ℝ)) (0, 0, 0) ≠
    (fun k : Mesh 2 2 1 => ((k.1 : ℕ) : ℝ)) (1, 0, 0) := by
  refine ⟨⟨fun _ => 0, ?_, ?_, ?_⟩, ?_⟩ <;> simp [vec2] <;> ring

end Verif.Diag
