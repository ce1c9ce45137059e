import Verif.Occ.Model
import Mathlib.Analysis.SpecialFunctions.Log.Deriv
import Mathlib.Analysis.SpecialFunctions.Trigonometric.ArctanDeriv
import Mathlib.MeasureTheory.Integral.IntervalIntegral.FundThmCalculus
import Mathlib.Analysis.Calculus.Deriv.ZPow
import Mathlib.Tactic.FieldSimp
import Mathlib.Tactic.Linarith
import Mathlib.Tactic.LinearCombination

/-! # Properties C36 and C37: derivatives of the smearing functions -/

namespace Verif.Occ

open Filter Topology

theorem hd {f : ℝ → ℝ} {a b x : ℝ} (h : HasDerivAt f a x) (e : b = a) : HasDerivAt f b x := e ▸ h

theorem near_lt (x c : ℝ) (h : x < c) : ∀ᶠ y in 𝓝 x, y < c := Iio_mem_nhds h

theorem near_abs (x c : ℝ) (h : |x| < c) : ∀ᶠ y in 𝓝 x, |y| < c :=
  (continuous_abs.tendsto x).eventually (Iio_mem_nhds h)

theorem clip_eq (x : ℝ) (h : |x| ≤ xmax) : clip x = x := by
  unfold clip
  rw [min_eq_left h]
  rcases lt_trichotomy x 0 with hx | rfl | hx
  · rw [Real.sign_of_neg hx, abs_of_neg hx]; ring
  · simp
  · rw [Real.sign_of_pos hx, abs_of_pos hx]; ring

/-! ### Fermi-Dirac -/

theorem fd_hasDerivAt (x : ℝ) :
    HasDerivAt (fun y => 1 / (Real.exp y + 1)) (-(1 / (2 * Real.cosh x + 2))) x := by
  have hp : Real.exp x + 1 ≠ 0 := by positivity
  have h := ((Real.hasDerivAt_exp x).add_const 1).inv hp
  have e : (fun y => 1 / (Real.exp y + 1)) = fun y => (Real.exp y + 1)⁻¹ := by
    funext y
    rw [one_div]
  rw [e]
  refine hd h ?_
  rw [Real.cosh_eq, Real.exp_neg]
  have h0 := Real.exp_pos x
  have h1 : 2 * ((Real.exp x + (Real.exp x)⁻¹) / 2) + 2 = (Real.exp x + 1) ^ 2 / Real.exp x := by
    field_simp
    ring
  rw [h1]
  field_simp

theorem fermi_hasDerivAt (x : ℝ) (hx : x < xmax) (h' : -xmax < x) :
    HasDerivAt fermiDirac (-fermiDiracDelta x) x := by
  have h := fd_hasDerivAt x
  unfold fermiDiracDelta
  rw [min_eq_left (abs_lt.2 ⟨h', hx⟩).le, Real.cosh_abs]
  apply h.congr_of_eventuallyEq
  filter_upwards [near_lt x xmax hx] with y hy
  unfold fermiDirac
  rw [min_eq_left hy.le]

/-- C36 (Fermi-Dirac; partial: arguments not affected by the overflow guards). -/
theorem C36_fermi_dirac_partial (x : ℝ) (hx : |x| < 709) :
    HasDerivAt fermiDirac (-fermiDiracDelta x) x ∧
    HasDerivAt fermiDiracDelta (fermiDiracDeltaPrime x) x := by
  have hx : |x| < xmax := hx
  obtain ⟨h1, h2⟩ := abs_lt.1 hx
  refine ⟨fermi_hasDerivAt x h2 h1, ?_⟩
  unfold fermiDiracDeltaPrime
  rw [clip_eq x hx.le]
  have h : HasDerivAt (fun y => 1 / (2 * Real.cosh y + 2))
      (-Real.sinh x / (2 * (Real.cosh x + 1) ^ 2)) x := by
    have hc := Real.cosh_pos x
    have hp : 2 * Real.cosh x + 2 ≠ 0 := by positivity
    have h := (((Real.hasDerivAt_cosh x).const_mul 2).add_const 2).inv hp
    have e : (fun y => 1 / (2 * Real.cosh y + 2)) = fun y => (2 * Real.cosh y + 2)⁻¹ := by
      funext y
      rw [one_div]
    rw [e]
    refine hd h ?_
    rw [show 2 * Real.cosh x + 2 = 2 * (Real.cosh x + 1) by ring]
    field_simp
  apply h.congr_of_eventuallyEq
  filter_upwards [near_abs x xmax hx] with y hy
  unfold fermiDiracDelta
  rw [min_eq_left hy.le, Real.cosh_abs]

example : |(2 : ℝ)| < 709 := by norm_num

/-- C36 is violated (by less than the smallest normalized floating-point number) where the overflow guards
take effect: the step function is constant, its `delta` does not vanish. -/
theorem C36_guard_violated (x : ℝ) (hx : 709 < x) :
    HasDerivAt fermiDirac 0 x ∧ 0 < fermiDiracDelta x := by
  have hx : xmax < x := hx
  constructor
  · apply (hasDerivAt_const x (1 / (Real.exp xmax + 1))).congr_of_eventuallyEq
    filter_upwards [Ioi_mem_nhds hx] with y hy
    unfold fermiDirac
    rw [min_eq_right (le_of_lt hy)]
  · unfold fermiDiracDelta
    have := Real.cosh_pos (min |x| xmax)
    positivity

example := C36_guard_violated 1000 (by norm_num)

/-- C37 (Fermi-Dirac; partial: arguments not affected by the overflow guards). -/
theorem C37_fermi_dirac_partial (x : ℝ) (hx : |x| < 709) :
    HasDerivAt fermiDiracEntropy (-x * fermiDiracDelta x) x := by
  have hx : |x| < xmax := hx
  obtain ⟨h1, h2⟩ := abs_lt.1 hx
  have hf := fermi_hasDerivAt x h2 h1
  have hpos : 0 < fermiDirac x := by unfold fermiDirac; positivity
  have h := ((hasDerivAt_id x).mul (hf.sub_const 1)).sub (hf.log hpos.ne')
  have h' : HasDerivAt (fun y => y * (fermiDirac y - 1) - Real.log (fermiDirac y))
      (-x * fermiDiracDelta x) x := by
    refine hd h ?_
    simp only [id]
    have e : fermiDiracDelta x = fermiDirac x * (1 - fermiDirac x) := by
      unfold fermiDiracDelta fermiDirac
      rw [min_eq_left hx.le, Real.cosh_abs, min_eq_left h2.le, Real.cosh_eq, Real.exp_neg]
      have h0 := Real.exp_pos x
      have h1 : 2 * ((Real.exp x + (Real.exp x)⁻¹) / 2) + 2 = (Real.exp x + 1) ^ 2 / Real.exp x := by
        field_simp
        ring
      rw [h1]
      field_simp
      ring
    rw [e]
    field_simp
    ring
  apply h'.congr_of_eventuallyEq
  filter_upwards [near_abs x xmax hx] with y hy
  unfold fermiDiracEntropy
  rw [clip_eq y hy.le]

example : |(2 : ℝ)| < 709 := by norm_num

/-- C37 (Fermi-Dirac). The entropy is that of independent fermions. -/
theorem C37_fermi_dirac_entropy (x : ℝ) (hx : |x| ≤ 709) :
    fermiDiracEntropy x =
      -(fermiDirac x * Real.log (fermiDirac x) + (1 - fermiDirac x) * Real.log (1 - fermiDirac x)) := by
  have hx : |x| ≤ xmax := hx
  unfold fermiDiracEntropy
  rw [clip_eq x hx]
  have h2 := (abs_le.1 hx).2
  have e0 := Real.exp_pos x
  have hf : fermiDirac x = (Real.exp x + 1)⁻¹ := by
    unfold fermiDirac
    rw [min_eq_left h2, one_div]
  have h1f : 1 - fermiDirac x = Real.exp x * (Real.exp x + 1)⁻¹ := by
    rw [hf]
    field_simp
    ring
  have hl : Real.log (1 - fermiDirac x) = x + Real.log (fermiDirac x) := by
    rw [h1f, Real.log_mul e0.ne' (by positivity), Real.log_exp, hf]
  rw [hl]
  ring

example := C37_fermi_dirac_entropy (-3) (by norm_num)

/-! ### Gaussian -/

theorem sqrt_pi_pos : 0 < Real.sqrt Real.pi := Real.sqrt_pos.2 Real.pi_pos

theorem exp_hasDerivAt (x : ℝ) : HasDerivAt (fun y => Real.exp (-y * y)) (-2 * x * Real.exp (-x * x)) x := by
  have h : HasDerivAt (fun y : ℝ => -y * y) (-2 * x) x := by
    have := (hasDerivAt_id x).neg.mul (hasDerivAt_id x)
    refine hd this ?_
    simp only [id, Pi.neg_apply]
    ring
  refine hd h.exp ?_
  ring

theorem erf_hasDerivAt (x : ℝ) : HasDerivAt erf (2 * gaussDelta x) x := by
  have hc : Continuous fun t : ℝ => Real.exp (-t * t) := by fun_prop
  have h := intervalIntegral.integral_hasDerivAt_right (hc.intervalIntegrable 0 x)
    (hc.stronglyMeasurableAtFilter _ _) hc.continuousAt
  have := h.const_mul (2 / Real.sqrt Real.pi)
  unfold erf gaussDelta
  refine hd this ?_
  ring

theorem gaussDelta_hasDerivAt (x : ℝ) : HasDerivAt gaussDelta (gaussDeltaPrime x) x := by
  unfold gaussDelta gaussDeltaPrime
  exact (exp_hasDerivAt x).div_const _

/-- C36 (Gaussian). -/
theorem C36_gauss (x : ℝ) :
    HasDerivAt gauss (-gaussDelta x) x ∧ HasDerivAt gaussDelta (gaussDeltaPrime x) x := by
  refine ⟨?_, gaussDelta_hasDerivAt x⟩
  have := ((erf_hasDerivAt x).const_sub 1).div_const 2
  unfold gauss
  refine hd this ?_
  ring

/-- C37 (Gaussian). -/
theorem C37_gauss (x : ℝ) : HasDerivAt gaussEntropy (-x * gaussDelta x) x := by
  have := (gaussDelta_hasDerivAt x).div_const 2
  unfold gaussEntropy
  refine hd this ?_
  unfold gaussDelta gaussDeltaPrime
  ring

/-! ### Marzari-Vanderbilt -/

theorem sqrt_two_pi : Real.sqrt (2 * Real.pi) = Real.sqrt 2 * Real.sqrt Real.pi :=
  Real.sqrt_mul (by norm_num) _

theorem sqrt_two_sq : Real.sqrt 2 * Real.sqrt 2 = 2 := Real.mul_self_sqrt (by norm_num)

/-- C36 (Marzari-Vanderbilt). -/
theorem C36_marzari_vanderbilt (x : ℝ) :
    HasDerivAt marzariVanderbilt (-marzariVanderbiltDelta x) x ∧
    HasDerivAt marzariVanderbiltDelta (marzariVanderbiltDeltaPrime x) x := by
  have hy : HasDerivAt (fun x : ℝ => x + 1 / Real.sqrt 2) 1 x := (hasDerivAt_id x).add_const _
  have hs := sqrt_two_sq
  have hs2 : 0 < Real.sqrt 2 := Real.sqrt_pos.2 (by norm_num)
  have hpi := sqrt_pi_pos
  constructor
  · have h1 := (erf_hasDerivAt (x + 1 / Real.sqrt 2)).comp x hy
    have h2 := (exp_hasDerivAt (x + 1 / Real.sqrt 2)).comp x hy
    have h := ((h1.const_sub 1).div_const 2).add (h2.div_const (Real.sqrt (2 * Real.pi)))
    unfold marzariVanderbilt marzariVanderbiltDelta
    refine hd h ?_
    simp only [gaussDelta]
    rw [sqrt_two_pi]
    generalize x + 1 / Real.sqrt 2 = y
    field_simp
    linear_combination -y * hs
  · have h2 := (exp_hasDerivAt (x + 1 / Real.sqrt 2)).comp x hy
    have h1 := (hy.const_mul (Real.sqrt 2)).add_const 1
    have h := (h1.mul h2).div_const (Real.sqrt Real.pi)
    unfold marzariVanderbiltDelta marzariVanderbiltDeltaPrime
    refine hd h ?_
    simp only [Function.comp]
    generalize x + 1 / Real.sqrt 2 = y
    ring

example := C36_marzari_vanderbilt 0.5

/-- C37 (Marzari-Vanderbilt). -/
theorem C37_marzari_vanderbilt (x : ℝ) :
    HasDerivAt marzariVanderbiltEntropy (-x * marzariVanderbiltDelta x) x := by
  have hy : HasDerivAt (fun x : ℝ => x + 1 / Real.sqrt 2) 1 x := (hasDerivAt_id x).add_const _
  have hs := sqrt_two_sq
  have hs2 : 0 < Real.sqrt 2 := Real.sqrt_pos.2 (by norm_num)
  have hpi := sqrt_pi_pos
  have h2 := (exp_hasDerivAt (x + 1 / Real.sqrt 2)).comp x hy
  have h := (hy.mul h2).div_const (Real.sqrt (2 * Real.pi))
  unfold marzariVanderbiltEntropy marzariVanderbiltDelta
  refine hd h ?_
  simp only [Function.comp]
  rw [sqrt_two_pi]
  obtain ⟨y, rfl⟩ : ∃ y, x = y - 1 / Real.sqrt 2 := ⟨x + 1 / Real.sqrt 2, by ring⟩
  rw [sub_add_cancel]
  field_simp
  linear_combination (-y ^ 2) * hs

example := C37_marzari_vanderbilt 0.5

/-! ### Methfessel-Paxton -/

/-- Hermite polynomials by their usual three-term recurrence relation. -/
def Hp : Nat → ℝ → ℝ
  | 0, _ => 1
  | 1, x => 2 * x
  | n + 2, x => 2 * x * Hp (n + 1) x - 2 * (n + 1) * Hp n x

theorem hermiteGen_eq (x : ℝ) (rem n : Nat) :
    hermiteGen x rem (n + 1) (Hp (n + 1) x) (Hp n x) = (List.range rem).map fun k => Hp (n + 1 + k) x := by
  induction rem generalizing n with
  | zero => rfl
  | succ rem ih =>
    rw [hermiteGen, List.range_succ_eq_map, List.map_cons, List.map_map]
    have e : 2 * x * Hp (n + 1) x - 2 * ((n + 1 : Nat) : ℝ) * Hp n x = Hp (n + 2) x := by
      rw [Hp]
      push_cast
      ring
    rw [e, ih (n + 1)]
    congr 1
    apply List.map_congr_left
    intro k _
    simp only [Function.comp]
    rw [show n + 1 + 1 + k = n + 1 + k.succ by omega]

/-- The generator yields the Hermite polynomials. -/
theorem hermitePolynomials_eq (x : ℝ) (N : Nat) :
    hermitePolynomials x N = (List.range N).map fun k => Hp k x := by
  unfold hermitePolynomials
  cases N with
  | zero => rfl
  | succ N =>
    rw [hermiteGen, List.range_succ_eq_map, List.map_cons, List.map_map]
    have e : (2 * x * 1 - 2 * ((0 : Nat) : ℝ) * 0) = Hp 1 x := by
      rw [Hp]
      ring
    have h0 : (1 : ℝ) = Hp 0 x := by rw [Hp]
    rw [e]
    conv_lhs => rw [h0]
    have := hermiteGen_eq x N 0
    simp only [Nat.zero_add] at this ⊢
    rw [this]
    congr 1
    apply List.map_congr_left
    intro k _
    simp only [Function.comp]
    rw [show 1 + k = k.succ by omega]

theorem Hp_hasDerivAt (n : Nat) (x : ℝ) :
    HasDerivAt (Hp (n + 1)) (2 * (n + 1) * Hp n x) x ∧
    HasDerivAt (Hp (n + 2)) (2 * (n + 2) * Hp (n + 1) x) x := by
  induction n with
  | zero =>
    have h1 : HasDerivAt (Hp 1) 2 x := by
      have := (hasDerivAt_id x).const_mul 2
      simpa [Hp] using this
    constructor
    · simpa [Hp] using h1
    · have e : Hp 2 = fun y => 2 * y * (2 * y) - 2 := by
        funext y
        simp [Hp]
      have := (((hasDerivAt_id x).const_mul 2).mul ((hasDerivAt_id x).const_mul 2)).sub_const 2
      rw [show (0 + 2 : Nat) = 2 from rfl, e]
      refine hd this ?_
      simp [Hp]
      ring
  | succ n ih =>
    refine ⟨?_, ?_⟩
    · have := ih.2
      push_cast
      refine hd this ?_
      ring
    · have e : Hp (n + 1 + 2) = fun y => 2 * y * Hp (n + 2) y - 2 * ((n + 1 : Nat) + 1) * Hp (n + 1) y := by
        funext y
        rw [Hp]
      rw [e]
      have h := (((hasDerivAt_id x).const_mul 2).mul ih.2).sub (ih.1.const_mul (2 * (((n + 1 : Nat) : ℝ) + 1)))
      refine hd h ?_
      simp only [id]
      rw [show n + 1 + 1 = n + 2 from rfl, Hp]
      push_cast
      ring

theorem Hp_gauss_hasDerivAt (n : Nat) (x : ℝ) :
    HasDerivAt (fun y => Hp n y * gaussDelta y) (-(Hp (n + 1) x * gaussDelta x)) x := by
  cases n with
  | zero =>
    have := gaussDelta_hasDerivAt x
    simp only [Hp, one_mul]
    refine hd this ?_
    unfold gaussDelta gaussDeltaPrime
    ring
  | succ n =>
    have h := (Hp_hasDerivAt n x).1.mul (gaussDelta_hasDerivAt x)
    refine hd h ?_
    rw [Hp]
    unfold gaussDelta gaussDeltaPrime
    ring

/-- Coefficients `A_n sqrt(pi)` of Methfessel and Paxton. -/
noncomputable def mpA (n : Nat) : ℝ := (-1) ^ n / (n.factorial * 4 ^ n)

theorem mpSkip_eq (d : Nat) (a : ℝ) (h : List ℝ) (hd : d ≤ h.length) :
    mpSkip d a h = some (a * (-1) ^ d, h.drop d) := by
  induction d generalizing a h with
  | zero => simp [mpSkip]
  | succ d ih =>
    cases h with
    | nil => simp at hd
    | cons y h =>
      rw [mpSkip, ih _ _ (by simpa using hd), List.drop_succ_cons]
      congr 2
      ring

theorem mpSkip_none (d : Nat) (a : ℝ) (h : List ℝ) (hd : h.length < d) : mpSkip d a h = none := by
  induction d generalizing a h with
  | zero => omega
  | succ d ih =>
    cases h with
    | nil => rfl
    | cons y h =>
      rw [mpSkip]
      exact ih _ _ (by simpa using hd)

theorem mpLoop_eq (m n : Nat) (c s : ℝ) (h : List ℝ) (hlen : 2 * m ≤ h.length) :
    mpLoop m (n + 1) (c * mpA n) s h =
      some (s + ∑ k ∈ Finset.range m, c * mpA (n + 1 + k) * h.getD (2 * k + 1) 0) := by
  induction m generalizing n s h with
  | zero => simp [mpLoop]
  | succ m ih =>
    match h, hlen with
    | [], hl => simp at hl
    | [_], hl => simp at hl; omega
    | y :: z :: h, hl =>
      rw [mpLoop]
      have ea : c * mpA n / (-4 * ((n + 1 : Nat) : ℝ)) = c * mpA (n + 1) := by
        unfold mpA
        rw [Nat.factorial_succ]
        have hf : ((n.factorial : Nat) : ℝ) ≠ 0 := by exact_mod_cast n.factorial_ne_zero
        have hn : ((n : ℝ) + 1) ≠ 0 := by positivity
        push_cast
        rw [pow_succ, pow_succ]
        field_simp
      rw [ea, ih (n + 1) _ h (by simp at hl; omega), Finset.sum_range_succ']
      congr 1
      simp only [Nat.mul_zero, Nat.zero_add, Nat.add_zero, List.getD_cons_succ, List.getD_cons_zero]
      rw [add_assoc]
      congr 1
      rw [add_comm]
      congr 1
      apply Finset.sum_congr rfl
      intro k _
      rw [show 2 * (k + 1) = (2 * k + 1) + 1 by ring, List.getD_cons_succ,
        show n + 1 + 1 + k = n + 1 + (k + 1) by ring]

theorem mpLoop_none (m n : Nat) (a s : ℝ) (h : List ℝ) (hlen : h.length < 2 * m) :
    mpLoop m n a s h = none := by
  induction m generalizing n a s h with
  | zero => omega
  | succ m ih =>
    match h, hlen with
    | [], _ => rfl
    | [_], _ => rfl
    | y :: z :: h, hl =>
      rw [mpLoop]
      exact ih _ _ _ _ (by simp at hl; omega)

/-- The implemented term is the documented sum for orders for which 100 Hermite polynomials suffice; an
exception is raised otherwise. -/
theorem mpTerm_eq (x : ℝ) (order diff : Nat) :
    mpTerm x order diff = if 2 * order + diff ≤ 100 then
      some ((∑ n ∈ Finset.range order, (-1) ^ diff * mpA (n + 1) * Hp (2 * n + 1 + diff) x) * gaussDelta x)
    else none := by
  unfold mpTerm
  rw [hermitePolynomials_eq]
  by_cases hd : diff ≤ 100
  · rw [mpSkip_eq _ _ _ (by simpa using hd), Option.bind_some]
    by_cases h : 2 * order + diff ≤ 100
    · rw [if_pos h]
      have e : (1 : ℝ) * (-1) ^ diff = (-1) ^ diff * mpA 0 := by simp [mpA]
      simp only
      rw [e, mpLoop_eq order 0 _ _ _ (by simp; omega), Option.map_some, zero_add]
      congr 2
      apply Finset.sum_congr rfl
      intro k hk
      rw [Finset.mem_range] at hk
      rw [show 0 + 1 + k = k + 1 by ring]
      congr 1
      rw [List.getD_eq_getElem?_getD, List.getElem?_drop, List.getElem?_map, List.getElem?_range (by omega)]
      simp only [Option.map_some, Option.getD_some]
      rw [show diff + (2 * k + 1) = 2 * k + 1 + diff by ring]
    · rw [if_neg h, mpLoop_none _ _ _ _ _ (by simp; omega), Option.map_none]
  · rw [if_neg (by omega), mpSkip_none _ _ _ (by simp; omega), Option.bind_none]

/-- Step function of Methfessel and Paxton as documented, of order `N`. -/
noncomputable def mpStep (N : Nat) (x : ℝ) : ℝ :=
  gauss x + ∑ n ∈ Finset.range N, mpA (n + 1) * (Hp (2 * n + 1) x * gaussDelta x)

/-- Delta function of Methfessel and Paxton as documented, of order `N`. -/
noncomputable def mpDelta (N : Nat) (x : ℝ) : ℝ :=
  gaussDelta x + ∑ n ∈ Finset.range N, mpA (n + 1) * (Hp (2 * n + 2) x * gaussDelta x)

/-- Derivative of the delta function. -/
noncomputable def mpDeltaPrime (N : Nat) (x : ℝ) : ℝ :=
  gaussDeltaPrime x - ∑ n ∈ Finset.range N, mpA (n + 1) * (Hp (2 * n + 3) x * gaussDelta x)

theorem mp_eq (N : Nat) (x : ℝ) :
    methfesselPaxton N x = (if 2 * N ≤ 100 then some (mpStep N x) else none) ∧
    methfesselPaxtonDelta N x = (if 2 * N + 1 ≤ 100 then some (mpDelta N x) else none) ∧
    methfesselPaxtonDeltaPrime N x = (if 2 * N + 2 ≤ 100 then some (mpDeltaPrime N x) else none) := by
  unfold methfesselPaxton methfesselPaxtonDelta methfesselPaxtonDeltaPrime mpStep mpDelta mpDeltaPrime
  rw [mpTerm_eq, mpTerm_eq, mpTerm_eq]
  refine ⟨?_, ?_, ?_⟩
  · split
    · rw [if_pos (by omega), Option.map_some, Finset.sum_mul]
      congr 2
      apply Finset.sum_congr rfl
      intro n _
      ring_nf
    · rw [if_neg (by omega), Option.map_none]
  · split
    · rw [Option.map_some, Finset.sum_mul, sub_eq_add_neg, ← Finset.sum_neg_distrib]
      congr 2
      apply Finset.sum_congr rfl
      intro n _
      ring_nf
    · rw [Option.map_none]
  · split
    · rw [Option.map_some, Finset.sum_mul]
      congr 2
      apply Finset.sum_congr rfl
      intro n _
      ring_nf
    · rw [Option.map_none]

/-- C36 (Methfessel-Paxton). Up to order 49 all functions return values, `delta` is the negative derivative of
the step function and `delta_prime` the derivative of `delta`. -/
theorem C36_methfessel_paxton (N : Nat) (hN : N ≤ 49) :
    ∃ f d d' : ℝ → ℝ, (∀ x, methfesselPaxton N x = some (f x)) ∧
      (∀ x, methfesselPaxtonDelta N x = some (d x)) ∧
      (∀ x, methfesselPaxtonDeltaPrime N x = some (d' x)) ∧
      (∀ x, HasDerivAt f (-d x) x) ∧ ∀ x, HasDerivAt d (d' x) x := by
  refine ⟨mpStep N, mpDelta N, mpDeltaPrime N, ?_, ?_, ?_, ?_, ?_⟩
  · intro x
    rw [(mp_eq N x).1, if_pos (by omega)]
  · intro x
    rw [(mp_eq N x).2.1, if_pos (by omega)]
  · intro x
    rw [(mp_eq N x).2.2, if_pos (by omega)]
  · intro x
    have h := (C36_gauss x).1.add (HasDerivAt.fun_sum (u := Finset.range N) fun n _ =>
      (Hp_gauss_hasDerivAt (2 * n + 1) x).const_mul (mpA (n + 1)))
    unfold mpStep mpDelta
    refine hd h ?_
    rw [neg_add, ← Finset.sum_neg_distrib]
    congr 1
    apply Finset.sum_congr rfl
    intro n _
    ring_nf
  · intro x
    have h := (gaussDelta_hasDerivAt x).add (HasDerivAt.fun_sum (u := Finset.range N) fun n _ =>
      (Hp_gauss_hasDerivAt (2 * n + 2) x).const_mul (mpA (n + 1)))
    unfold mpDelta mpDeltaPrime
    refine hd h ?_
    rw [sub_eq_add_neg, ← Finset.sum_neg_distrib]
    congr 1
    apply Finset.sum_congr rfl
    intro n _
    ring_nf

example := C36_methfessel_paxton 3 (by norm_num)

/-- C36 is violated for large orders, where the hundred Hermite polynomials are exhausted: no derivatives
from order 50 on, no step function from order 51 on. -/
theorem C36_methfessel_paxton_violated (x : ℝ) :
    (methfesselPaxton 50 x).isSome ∧ methfesselPaxtonDelta 50 x = none ∧ methfesselPaxton 51 x = none := by
  rw [(mp_eq 50 x).1, (mp_eq 50 x).2.1, (mp_eq 51 x).1]
  refine ⟨?_, ?_, ?_⟩ <;> simp

/-- C37 (Methfessel-Paxton). The entropy is available and consistent for first order; an exception is
raised for all other orders. -/
theorem C37_methfessel_paxton :
    (∃ s d : ℝ → ℝ, (∀ x, methfesselPaxtonEntropy 1 x = some (s x)) ∧
      (∀ x, methfesselPaxtonDelta 1 x = some (d x)) ∧ ∀ x, HasDerivAt s (-x * d x) x) ∧
    ∀ N x, N ≠ 1 → methfesselPaxtonEntropy N x = none := by
  constructor
  · refine ⟨fun x => -0.5 * ((-1) * mpA 1 * (Hp 2 x * gaussDelta x)), mpDelta 1, ?_, ?_, ?_⟩
    · intro x
      unfold methfesselPaxtonEntropy
      rw [if_neg (by simp), mpTerm_eq, if_pos (by norm_num), Option.map_some, Finset.sum_range_one]
      congr 2
      ring
    · intro x
      rw [(mp_eq 1 x).2.1, if_pos (by norm_num)]
    · intro x
      have h := ((Hp_gauss_hasDerivAt 2 x).const_mul ((-1) * mpA 1)).const_mul (-0.5)
      refine hd h ?_
      unfold mpDelta
      simp [Hp, mpA]
      ring
  · intro N x h
    unfold methfesselPaxtonEntropy
    rw [if_pos h]

/-! ### Superpositions of Fermi functions -/

/-- C36 (double Fermi-Dirac; partial: arguments not affected by the overflow guards). -/
theorem C36_double_fermi_dirac_partial (d x : ℝ) (h1 : |x - d| < 709) (h2 : |x + d| < 709) :
    HasDerivAt (doubleFermiDirac d) (-doubleFermiDiracDelta d x) x ∧
    HasDerivAt (doubleFermiDiracDelta d) (doubleFermiDiracDeltaPrime d x) x := by
  have h1 : |x - d| < xmax := h1
  have h2 : |x + d| < xmax := h2
  have i1 : HasDerivAt (fun x : ℝ => x - d) 1 x := (hasDerivAt_id x).sub_const d
  have i2 : HasDerivAt (fun x : ℝ => x + d) 1 x := (hasDerivAt_id x).add_const d
  constructor
  · have h := (((C36_fermi_dirac_partial _ h1).1.comp x i1).add
      ((C36_fermi_dirac_partial _ h2).1.comp x i2)).div_const 2
    unfold doubleFermiDirac doubleFermiDiracDelta
    refine hd h ?_
    ring
  · have h := (((C36_fermi_dirac_partial _ h1).2.comp x i1).add
      ((C36_fermi_dirac_partial _ h2).2.comp x i2)).div_const 2
    unfold doubleFermiDiracDelta doubleFermiDiracDeltaPrime
    refine hd h ?_
    ring

example := C36_double_fermi_dirac_partial 2 5 (by norm_num) (by norm_num)

/-- C37 (double Fermi-Dirac; partial: arguments not affected by the overflow guards). -/
theorem C37_double_fermi_dirac_partial (d x : ℝ) (h1 : |x - d| < 709) (h2 : |x + d| < 709) :
    HasDerivAt (doubleFermiDiracEntropy d) (-x * doubleFermiDiracDelta d x) x := by
  have h1 : |x - d| < xmax := h1
  have h2 : |x + d| < xmax := h2
  have i1 : HasDerivAt (fun x : ℝ => x - d) 1 x := (hasDerivAt_id x).sub_const d
  have i2 : HasDerivAt (fun x : ℝ => x + d) 1 x := (hasDerivAt_id x).add_const d
  have h := ((((C37_fermi_dirac_partial _ h1).comp x i1).add ((C37_fermi_dirac_partial _ h2).comp x i2)).add
    ((((C36_fermi_dirac_partial _ h1).1.comp x i1).sub
      ((C36_fermi_dirac_partial _ h2).1.comp x i2)).const_mul d)).div_const 2
  unfold doubleFermiDiracEntropy doubleFermiDiracDelta
  refine hd h ?_
  ring

example := C37_double_fermi_dirac_partial 2 5 (by norm_num) (by norm_num)

theorem twoDx_near (d x : ℝ) (hx : x ≠ 0) : ∀ᶠ y in 𝓝 x, twoDx d y = twoDx d x ∧ twoDy d y = twoDy d x := by
  rcases lt_or_gt_of_ne hx with h | h
  · filter_upwards [Iio_mem_nhds h] with y hy
    have hy' : y < 0 := hy
    simp [twoDx, twoDy, h, hy']
  · filter_upwards [Ioi_mem_nhds h] with y hy
    have hy' : ¬ y < 0 := not_lt.2 (le_of_lt hy)
    have h' : ¬ x < 0 := not_lt.2 (le_of_lt h)
    simp [twoDx, twoDy, h', hy']

/-- C36 (two Fermi functions; partial: not at the jump at zero and not where the overflow guards act). -/
theorem C36_two_fermi_dirac_partial (d x : ℝ) (hx : x ≠ 0) (h : |x + twoDx d x| < 709) :
    HasDerivAt (twoFermiDirac d) (-twoFermiDiracDelta d x) x ∧
    HasDerivAt (twoFermiDiracDelta d) (twoFermiDiracDeltaPrime d x) x := by
  have h : |x + twoDx d x| < xmax := h
  have i : HasDerivAt (fun y : ℝ => y + twoDx d x) 1 x := (hasDerivAt_id x).add_const _
  have hn := twoDx_near d x hx
  constructor
  · have h' := (C36_fermi_dirac_partial _ h).1.comp x i
    have h'' : HasDerivAt (fermiDirac ∘ fun y => y + twoDx d x) (-twoFermiDiracDelta d x) x := by
      refine hd h' ?_
      unfold twoFermiDiracDelta
      ring
    apply h''.congr_of_eventuallyEq
    filter_upwards [hn] with y hy
    simp [twoFermiDirac, hy.1]
  · have h' := (C36_fermi_dirac_partial _ h).2.comp x i
    have h'' : HasDerivAt (fermiDiracDelta ∘ fun y => y + twoDx d x) (twoFermiDiracDeltaPrime d x) x := by
      refine hd h' ?_
      unfold twoFermiDiracDeltaPrime
      ring
    apply h''.congr_of_eventuallyEq
    filter_upwards [hn] with y hy
    simp [twoFermiDiracDelta, hy.1]

example : (-1 : ℝ) ≠ 0 ∧ |(-1 : ℝ) + twoDx 3 (-1)| < 709 := by
  unfold twoDx twoDy
  rw [if_pos (by norm_num)]
  norm_num

/-- C37 (two Fermi functions; partial: not at zero and not where the overflow guards act). -/
theorem C37_two_fermi_dirac_partial (d x : ℝ) (hx : x ≠ 0) (h : |x + twoDx d x| < 709) :
    HasDerivAt (twoFermiDiracEntropy d) (-x * twoFermiDiracDelta d x) x := by
  have h : |x + twoDx d x| < xmax := h
  have i : HasDerivAt (fun y : ℝ => y + twoDx d x) 1 x := (hasDerivAt_id x).add_const _
  have hn := twoDx_near d x hx
  have h' := (((C37_fermi_dirac_partial _ h).comp x i).sub
    (((C36_fermi_dirac_partial _ h).1.comp x i).const_mul (twoDx d x))).add_const (twoDy d x)
  have h'' : HasDerivAt (fun y => fermiDiracEntropy (y + twoDx d x) - twoDx d x * fermiDirac (y + twoDx d x)
      + twoDy d x) (-x * twoFermiDiracDelta d x) x := by
    refine hd h' ?_
    unfold twoFermiDiracDelta
    ring
  apply h''.congr_of_eventuallyEq
  filter_upwards [hn] with y hy
  simp [twoFermiDiracEntropy, hy.1, hy.2]

example := C37_two_fermi_dirac_partial 3 (-1) (by norm_num) (by
  unfold twoDx twoDy
  rw [if_pos (by norm_num)]
  norm_num)

/-! ### Lorentz, Heaviside, Matsubara -/

/-- C36 (Lorentz). -/
theorem C36_lorentz (x : ℝ) :
    HasDerivAt lorentz (-lorentzDelta x) x ∧ HasDerivAt lorentzDelta (lorentzDeltaPrime x) x := by
  have hpi := Real.pi_pos
  have hq : 0 < x * x + Real.pi * Real.pi := by nlinarith [mul_self_nonneg x, mul_pos hpi hpi]
  constructor
  · have h := (((hasDerivAt_id x).div_const Real.pi).arctan.div_const Real.pi).const_sub 0.5
    unfold lorentz lorentzDelta
    refine hd h ?_
    simp only [id]
    rw [neg_inj, div_pow, one_div_mul_one_div, div_div, ← sq, ← sq, add_mul, add_mul, one_mul, div_mul_eq_mul_div,
      div_mul_eq_mul_div]
    congr 1
    field_simp
    ring
  · have h := ((((hasDerivAt_id x).mul (hasDerivAt_id x)).add_const (Real.pi * Real.pi)).inv hq.ne')
    have e : lorentzDelta = fun y => (y * y + Real.pi * Real.pi)⁻¹ := by
      funext y
      unfold lorentzDelta
      rw [one_div]
    rw [e]
    unfold lorentzDeltaPrime
    refine hd h ?_
    simp only [id, Pi.mul_apply]
    ring

example := C36_lorentz 0.5

/-- C37 (Heaviside): no entropy, whose derivative is `-x delta(x)` except at zero. -/
theorem C37_heaviside (x : ℝ) (hx : x ≠ 0) :
    ∃ d : ℝ, heavisideDelta x = (d : WithTop ℝ) ∧ HasDerivAt heavisideEntropy (-x * d) x := by
  refine ⟨0, by simp [heavisideDelta, hx], ?_⟩
  rw [mul_zero]
  exact hasDerivAt_const x 0

example := C37_heaviside 3 (by norm_num)

/-- C36 (Heaviside), except at zero, where `delta` is infinite. -/
theorem C36_heaviside (x : ℝ) (hx : x ≠ 0) :
    heavisideDelta x = ((0 : ℝ) : WithTop ℝ) ∧ HasDerivAt heaviside 0 x ∧ heavisideDelta 0 = ⊤ := by
  refine ⟨by simp [heavisideDelta, hx], ?_, by simp [heavisideDelta]⟩
  rcases lt_or_gt_of_ne hx with h | h
  · apply (hasDerivAt_const x (1 : ℝ)).congr_of_eventuallyEq
    filter_upwards [Iio_mem_nhds h] with y hy
    unfold heaviside
    rw [Real.sign_of_neg hy]
    norm_num
  · apply (hasDerivAt_const x (0 : ℝ)).congr_of_eventuallyEq
    filter_upwards [Ioi_mem_nhds h] with y hy
    unfold heaviside
    rw [Real.sign_of_pos hy]
    norm_num

example := C36_heaviside (-2) (by norm_num)

theorem inu_sub_ne (n : Nat) (x : ℝ) : inu n - (x : ℂ) ≠ 0 := by
  intro h
  have him := congrArg Complex.im h
  have e : inu n - (x : ℂ) = ((-x : ℝ) : ℂ) + (((2 * n + 1) * Real.pi : ℝ) : ℂ) * Complex.I := by
    unfold inu
    push_cast
    ring
  rw [e] at him
  simp only [Complex.add_im, Complex.ofReal_im, Complex.mul_im, Complex.ofReal_re, Complex.I_im, mul_one,
    Complex.I_re, mul_zero, add_zero, zero_add, Complex.zero_im] at him
  have : 0 < (2 * (n : ℝ) + 1) * Real.pi := by positivity
  linarith

theorem matsubara_hasDerivAt (m : ℤ) (nmats : Nat) (x : ℝ) :
    HasDerivAt (fun y : ℝ => (∑ n ∈ Finset.range nmats, (inu n - (y : ℂ)) ^ m).re)
      (-m * (∑ n ∈ Finset.range nmats, (inu n - (x : ℂ)) ^ (m - 1)).re) x := by
  have h : ∀ n, HasDerivAt (fun z : ℂ => (inu n - z) ^ m) (m * (inu n - (x : ℂ)) ^ (m - 1) * (-1)) (x : ℂ) := by
    intro n
    have h1 := hasDerivAt_zpow m (inu n - (x : ℂ)) (Or.inl (inu_sub_ne n x))
    have h2 : HasDerivAt (fun z : ℂ => inu n - z) (-1) (x : ℂ) := by
      simpa using (hasDerivAt_id (x : ℂ)).const_sub (inu n)
    exact h1.comp (x : ℂ) h2
  have hs := HasDerivAt.fun_sum (u := Finset.range nmats) fun n _ => h n
  have := hs.real_of_complex
  refine hd this ?_
  rw [← Finset.sum_mul, ← Finset.mul_sum]
  rw [show ((m : ℂ) * ∑ i ∈ Finset.range nmats, (inu i - (x : ℂ)) ^ (m - 1)) * -1 =
    ((-m : ℝ) : ℂ) * ∑ i ∈ Finset.range nmats, (inu i - (x : ℂ)) ^ (m - 1) by push_cast; ring]
  rw [Complex.re_ofReal_mul]

/-- C36 (Matsubara sums), for any number of frequencies. -/
theorem C36_matsubara (nmats : Nat) (x : ℝ) :
    HasDerivAt (matsubara nmats) (-matsubaraDelta nmats x) x ∧
    HasDerivAt (matsubaraDelta nmats) (matsubaraDeltaPrime nmats x) x := by
  constructor
  · have h := ((matsubara_hasDerivAt (-1) nmats x).const_mul 2).const_add 0.5
    unfold matsubara matsubaraDelta
    refine hd h ?_
    norm_num
  · have h := (matsubara_hasDerivAt (-2) nmats x).const_mul (-2)
    unfold matsubaraDelta matsubaraDeltaPrime
    refine hd h ?_
    norm_num
    ring

example := C36_matsubara 10 0.5

end Verif.Occ
