import Verif.Occ.Step
import Mathlib.Analysis.Convex.Deriv
import Mathlib.Analysis.Real.Pi.Bounds
import Mathlib.Topology.Algebra.Order.Archimedean

/-! # Properties C38 and C39: Fermi level and names of smearing functions -/

namespace Verif.Occ

open Filter Topology

/-! ### Partial correctness -/

theorem fermiLoop_spec {N : Nat} (f : ℝ → ℝ) (delta0 : ℝ) (e : Fin N → ℝ) (kT eps n tol : ℝ) (fuel : Nat)
    (mu0 mu : ℝ) (h : fermiLoop f delta0 e kT eps n tol fuel mu0 = some mu) :
    |electrons f e kT mu - n| < tol := by
  induction fuel generalizing mu0 with
  | zero => simp [fermiLoop] at h
  | succ fuel ih =>
    rw [fermiLoop] at h
    split at h
    · cases h
      assumption
    · exact ih _ h

theorem simpleLoop_spec {N : Nat} (f : ℝ → ℝ) (e : Fin N → ℝ) (kT damp n tol : ℝ) (fuel : Nat)
    (mu0 mu : ℝ) (h : simpleLoop f e kT damp n tol fuel mu0 = some mu) :
    |electrons f e kT mu - n| < tol := by
  induction fuel generalizing mu0 with
  | zero => simp [simpleLoop] at h
  | succ fuel ih =>
    rw [simpleLoop] at h
    split at h
    · cases h
      assumption
    · exact ih _ h

/-- Specification: number of electrons per unit cell, with spin, for `nk` k points. -/
noncomputable def density (nk bands : Nat) (f : ℝ → ℝ) (e : Fin (nk * bands) → ℝ) (kT mu : ℝ) : ℝ :=
  2 * (∑ i, f ((e i - mu) / kT)) / nk

theorem scale_eq (nk bands : Nat) (hb : 0 < bands) :
    (0.5 : ℝ) * ((nk * bands : Nat) : ℝ) / (bands : ℝ) = nk / 2 := by
  have : (bands : ℝ) ≠ 0 := by positivity
  push_cast
  field_simp
  ring

theorem density_of (nk bands : Nat) (hk : 0 < nk) (f : ℝ → ℝ) (e : Fin (nk * bands) → ℝ)
    (kT mu n tol : ℝ) (h : |electrons f e kT mu - n * (nk / 2)| < tol * (nk / 2)) :
    |density nk bands f e kT mu - n| < tol := by
  have hk' : (0 : ℝ) < nk := by exact_mod_cast hk
  have e1 : electrons f e kT mu - n * (nk / 2) = (density nk bands f e kT mu - n) * (nk / 2) := by
    unfold electrons density
    field_simp
  rw [e1, abs_mul, abs_of_pos (show (0 : ℝ) < nk / 2 by positivity)] at h
  exact lt_of_mul_lt_mul_right h (by positivity)

/-- C38 (partial correctness). Whenever `find_Fermi_level` or `find_Fermi_level_simple` returns, the number of
electrons is the requested one within the tolerance; for any distribution function, any starting point and any
number of iterations. -/
theorem C38_returns (nk bands : Nat) (hk : 0 < nk) (hb : 0 < bands) (f : ℝ → ℝ) (delta0 : ℝ)
    (e : Fin (nk * bands) → ℝ) (lo hi kT eps damp n tol : ℝ) (mu0 : Option ℝ) (fuel : Nat) (mu : ℝ)
    (h : findFermiLevel nk bands f delta0 e lo hi kT eps n tol mu0 fuel = some mu ∨
      findFermiLevelSimple nk bands f e lo hi kT damp n tol mu0 fuel = some mu) :
    |density nk bands f e kT mu - n| < tol := by
  apply density_of nk bands hk
  rw [← scale_eq nk bands hb]
  rcases h with h | h
  · exact fermiLoop_spec _ _ _ _ _ _ _ _ _ _ h
  · exact simpleLoop_spec _ _ _ _ _ _ _ _ _ h

/-- A half-filled pair of bands at `±1` (with the guess by `find_Fermi_level` itself). -/
example : findFermiLevel 1 2 fermi (1 / 4) ![-1, 1] (-1) 1 1 0 2 1 none 1 = some 0 := by
  have hg : guess (1 * 2) (-1) 1 ((2 : ℝ) * (0.5 * ((1 * 2 : Nat) : ℝ) / ((2 : Nat) : ℝ))) = 0 := by
    unfold guess
    norm_num
  unfold findFermiLevel
  simp only [Option.getD_none]
  rw [hg, fermiLoop, if_pos]
  have h1 : electrons fermi (![-1, 1] : Fin (1 * 2) → ℝ) 1 0 = fermi (-1) + fermi 1 := by
    unfold electrons
    rw [Fin.sum_univ_two]
    norm_num
  have h2 := fermi_smoothStep.symm 1
  rw [h1, show fermi (-1) + fermi 1 = 1 by linarith]
  norm_num

/-! ### Fixed points -/

theorem update_eq {N : Nat} (f : ℝ → ℝ) (delta0 : ℝ) (e : Fin N → ℝ) (kT eps n mu : ℝ)
    (hW : ∑ i, weights f delta0 e kT eps mu i ≠ 0) :
    update f delta0 e kT eps n mu = mu +
      (n - ∑ i, (f 0 - (e i - mu) * weights f delta0 e kT eps mu i)) / ∑ i, weights f delta0 e kT eps mu i := by
  unfold update
  rw [Finset.sum_sub_distrib, Finset.sum_const, Finset.card_univ, Fintype.card_fin, nsmul_eq_mul]
  have : ∑ i, (e i - mu) * weights f delta0 e kT eps mu i =
      ∑ i, e i * weights f delta0 e kT eps mu i - mu * ∑ i, weights f delta0 e kT eps mu i := by
    rw [Finset.mul_sum, ← Finset.sum_sub_distrib]
    apply Finset.sum_congr rfl
    intro i _
    ring
  rw [this]
  field_simp
  ring

/-- C38 (fixed points). As long as no state comes closer to the chemical potential than `eps` without coinciding
with it, the exact solution, and only the exact solution, is a fixed point of the iteration. -/
theorem C38_fixed_point {N : Nat} (f : ℝ → ℝ) (delta0 : ℝ) (e : Fin N → ℝ) (kT eps n mu : ℝ) (he : 0 ≤ eps)
    (hW : ∑ i, weights f delta0 e kT eps mu i ≠ 0) (h : ∀ i, e i = mu ∨ eps < |e i - mu|) :
    update f delta0 e kT eps n mu = mu ↔ ∑ i, f ((e i - mu) / kT) = n := by
  have h1 : ∑ i, (f 0 - (e i - mu) * weights f delta0 e kT eps mu i) = ∑ i, f ((e i - mu) / kT) := by
    apply Finset.sum_congr rfl
    intro i _
    rcases h i with h | h
    · rw [h, sub_self]
      simp
    · have hne : e i - mu ≠ 0 := by
        intro h0
        rw [h0, abs_zero] at h
        linarith
      unfold weights
      rw [if_pos h]
      field_simp
      ring
  rw [update_eq _ _ _ _ _ _ _ hW, h1]
  constructor
  · intro h2
    have : (n - ∑ i, f ((e i - mu) / kT)) / ∑ i, weights f delta0 e kT eps mu i = 0 := by linarith
    rcases div_eq_zero_iff.1 this with h3 | h3
    · linarith
    · exact absurd h3 hW
  · intro h2
    rw [h2, sub_self, zero_div, add_zero]

example : ∑ i, weights fermi (1 / 4) ![(0 : ℝ)] 1 0 0 i ≠ 0 := by
  simp [weights]

/-! ### Termination -/

/-- What is needed from a distribution function `f` (and the function `g` that is actually evaluated) for the
iteration to converge: the chord from the center is the flatter the farther away the other end, and not
steeper than `d`. -/
structure Chord (f g : ℝ → ℝ) (d eta : ℝ) : Prop where
  cont : Continuous f
  anti : Antitone f
  symm : ∀ x, f x + f (-x) = 1
  chord : ∀ x y, 0 < x → x ≤ y → (1 / 2 - f y) / y ≤ (1 / 2 - f x) / x
  pos : ∀ x, 0 < x → f x < 1 / 2
  steep : ∀ x, 0 < x → (1 / 2 - f x) / x ≤ d
  dpos : 0 < d
  zero : g 0 = 1 / 2
  near : ∀ x, |g x - f x| ≤ eta
  low : ∀ x, x ≠ 0 → 9 / 10 * ((1 / 2 - f x) / x) ≤ (1 / 2 - g x) / x
  high : ∀ x, x ≠ 0 → (1 / 2 - g x) / x ≤ d

/-- Antiderivative of minus the distribution function. -/
noncomputable def pot (f : ℝ → ℝ) (x : ℝ) : ℝ := -∫ t in (0 : ℝ)..x, f t

theorem pot_hasDerivAt (f : ℝ → ℝ) (hf : Continuous f) (x : ℝ) : HasDerivAt (pot f) (-f x) x :=
  (intervalIntegral.integral_hasDerivAt_right (hf.intervalIntegrable 0 x)
    (hf.stronglyMeasurableAtFilter _ _) hf.continuousAt).neg

theorem chord_neg {f g : ℝ → ℝ} {d eta : ℝ} (H : Chord f g d eta) (x : ℝ) :
    (1 / 2 - f (-x)) / (-x) = (1 / 2 - f x) / x := by
  have : f (-x) = 1 - f x := by linarith [H.symm x]
  rw [this, show (1 / 2 - (1 - f x)) = -(1 / 2 - f x) by ring, neg_div_neg_eq]

/-- Quadratic majorant. -/
theorem majorant {f g : ℝ → ℝ} {d eta : ℝ} (H : Chord f g d eta) (x y c : ℝ)
    (hc : x ≠ 0 → (1 / 2 - f x) / x ≤ c) (hd : x = 0 → d ≤ c) :
    pot f y ≤ pot f x - f x * (y - x) + 1 / 2 * c * (y - x) ^ 2 := by
  -- it is enough to consider the smallest possible curvature
  obtain ⟨v, hvc, hv, hv1, hv2⟩ : ∃ v, v ≤ c ∧ v * x = 1 / 2 - f x ∧
      (∀ y, 0 < y → y ≤ |x| → v ≤ (1 / 2 - f y) / y) ∧ ∀ y, 0 < y → |x| ≤ y → (1 / 2 - f y) / y ≤ v := by
    rcases eq_or_ne x 0 with rfl | hx
    · refine ⟨d, hd rfl, ?_, ?_, ?_⟩
      · have := H.symm 0
        rw [neg_zero] at this
        linarith
      · intro y h1 h2
        rw [abs_zero] at h2
        linarith
      · intro y h1 _
        exact H.steep y h1
    · have e : (1 / 2 - f |x|) / |x| = (1 / 2 - f x) / x := by
        rcases abs_cases x with ⟨h, _⟩ | ⟨h, _⟩
        · rw [h]
        · rw [h, chord_neg H]
      refine ⟨_, hc hx, by field_simp, ?_, ?_⟩
      · intro y h1 h2
        rw [← e]
        exact H.chord y _ h1 h2
      · intro y h1 h2
        rw [← e]
        exact H.chord _ y (abs_pos.2 hx) h2
  set h : ℝ → ℝ := fun y => pot f x - f x * (y - x) + 1 / 2 * v * (y - x) ^ 2 - pot f y with hh
  have hder : ∀ y, HasDerivAt h (v * y - (1 / 2 - f y)) y := by
    intro y
    have h1 : HasDerivAt (fun y : ℝ => y - x) 1 y := (hasDerivAt_id y).sub_const x
    have h2 := (((h1.const_mul (f x)).const_sub (pot f x)).add ((h1.pow 2).const_mul (1 / 2 * v))).sub
      (pot_hasDerivAt f H.cont y)
    refine hd_aux h2 ?_
    simp only [Nat.cast_ofNat]
    linear_combination hv
  have hcont : Continuous h := continuous_iff_continuousAt.2 fun y => (hder y).continuousAt
  have hx0 : h x = 0 := by
    simp [hh]
  have heven : ∀ y, h (-y) = h y := by
    have hdd : ∀ y, HasDerivAt (fun y => h (-y) - h y) 0 y := by
      intro y
      have h1 : HasDerivAt (fun y : ℝ => -y) (-1) y := (hasDerivAt_id y).neg
      have h2 := ((hder (-y)).comp y h1).sub (hder y)
      refine hd_aux h2 ?_
      have := H.symm y
      linear_combination this
    have hconst := is_const_of_deriv_eq_zero (fun y => (hdd y).differentiableAt) fun y => (hdd y).deriv
    intro y
    have := hconst y 0
    simp only [neg_zero, sub_self] at this
    linarith
  have habs : h |x| = 0 := by
    rcases abs_cases x with ⟨h', _⟩ | ⟨h', _⟩
    · rw [h', hx0]
    · rw [h', heven, hx0]
  have hnonneg : ∀ y, 0 ≤ y → 0 ≤ h y := by
    intro y hy
    rcases le_total y |x| with hyx | hyx
    · have hA : AntitoneOn h (Set.Icc 0 |x|) := by
        apply antitoneOn_of_deriv_nonpos (convex_Icc _ _) hcont.continuousOn
        · intro z _
          exact (hder z).differentiableAt.differentiableWithinAt
        · intro z hz
          rw [interior_Icc] at hz
          rw [(hder z).deriv]
          have := hv1 z hz.1 hz.2.le
          rw [le_div_iff₀ hz.1] at this
          linarith
      have := hA ⟨hy, hyx⟩ ⟨abs_nonneg x, le_refl _⟩ hyx
      rw [habs] at this
      exact this
    · have hM : MonotoneOn h (Set.Ici |x|) := by
        apply monotoneOn_of_deriv_nonneg (convex_Ici _) hcont.continuousOn
        · intro z _
          exact (hder z).differentiableAt.differentiableWithinAt
        · intro z hz
          rw [interior_Ici] at hz
          rw [(hder z).deriv]
          have hz0 : 0 < z := lt_of_le_of_lt (abs_nonneg x) hz
          have := hv2 z hz0 (le_of_lt hz)
          rw [div_le_iff₀ hz0] at this
          linarith
      have := hM (le_refl |x|) hyx hyx
      rw [habs] at this
      exact this
  have hy : 0 ≤ h y := by
    rcases le_total 0 y with h' | h'
    · exact hnonneg y h'
    · rw [← heven]
      exact hnonneg (-y) (by linarith)
  have hsq := mul_le_mul_of_nonneg_right hvc (sq_nonneg (y - x))
  simp only [hh] at hy
  nlinarith
where hd_aux {f : ℝ → ℝ} {a b x : ℝ} (h : HasDerivAt f a x) (e : b = a) : HasDerivAt f b x := e ▸ h

/-- The function minimized by the iteration. -/
noncomputable def objective {N : Nat} (f : ℝ → ℝ) (e : Fin N → ℝ) (kT n mu : ℝ) : ℝ :=
  kT * (∑ i, pot f ((e i - mu) / kT)) - n * mu

/-- The exact solution minimizes the objective. -/
theorem objective_min {N : Nat} {f g : ℝ → ℝ} {d eta : ℝ} (H : Chord f g d eta) (e : Fin N → ℝ)
    (kT n mu0 : ℝ) (hkT : 0 < kT) (h0 : electrons f e kT mu0 = n) (mu : ℝ) :
    objective f e kT n mu0 ≤ objective f e kT n mu := by
  have hpot : ∀ x y, pot f x - f x * (y - x) ≤ pot f y := by
    intro x y
    set k : ℝ → ℝ := fun y => pot f y - (pot f x - f x * (y - x)) with hk
    have hder : ∀ y, HasDerivAt k (f x - f y) y := by
      intro y
      have h1 : HasDerivAt (fun y : ℝ => y - x) 1 y := (hasDerivAt_id y).sub_const x
      have h2 := (pot_hasDerivAt f H.cont y).sub ((h1.const_mul (f x)).const_sub (pot f x))
      refine hd h2 ?_
      ring
    have hcont : Continuous k := continuous_iff_continuousAt.2 fun y => (hder y).continuousAt
    have hk0 : k x = 0 := by simp [hk]
    have : 0 ≤ k y := by
      rw [← hk0]
      rcases le_total x y with h | h
      · have hM : MonotoneOn k (Set.Ici x) := by
          apply monotoneOn_of_deriv_nonneg (convex_Ici _) hcont.continuousOn
          · intro z _
            exact (hder z).differentiableAt.differentiableWithinAt
          · intro z hz
            rw [interior_Ici] at hz
            rw [(hder z).deriv]
            have := H.anti (le_of_lt hz)
            linarith
        exact hM (le_refl x) h h
      · have hA : AntitoneOn k (Set.Iic x) := by
          apply antitoneOn_of_deriv_nonpos (convex_Iic _) hcont.continuousOn
          · intro z _
            exact (hder z).differentiableAt.differentiableWithinAt
          · intro z hz
            rw [interior_Iic] at hz
            rw [(hder z).deriv]
            have := H.anti (le_of_lt hz)
            linarith
        exact hA h (le_refl x) h
    simp only [hk] at this
    linarith
  unfold objective
  have hs : ∑ i, (pot f ((e i - mu0) / kT) - f ((e i - mu0) / kT) * ((e i - mu) / kT - (e i - mu0) / kT)) ≤
      ∑ i, pot f ((e i - mu) / kT) := Finset.sum_le_sum fun i _ => hpot _ _
  have e1 : ∑ i, (pot f ((e i - mu0) / kT) - f ((e i - mu0) / kT) * ((e i - mu) / kT - (e i - mu0) / kT)) =
      ∑ i, pot f ((e i - mu0) / kT) - n * ((mu0 - mu) / kT) := by
    rw [Finset.sum_sub_distrib]
    congr 1
    rw [← h0]
    unfold electrons
    rw [Finset.sum_mul]
    apply Finset.sum_congr rfl
    intro i _
    ring
  rw [e1] at hs
  have := mul_le_mul_of_nonneg_left hs hkT.le
  have e2 : kT * (∑ i, pot f ((e i - mu0) / kT) - n * ((mu0 - mu) / kT)) =
      kT * ∑ i, pot f ((e i - mu0) / kT) - n * (mu0 - mu) := by
    field_simp
  linarith

/-- One iteration lowers the objective. -/
theorem objective_step {N : Nat} (hN : 0 < N) {f g : ℝ → ℝ} {d eta : ℝ} (H : Chord f g d eta) (e : Fin N → ℝ)
    (kT eps n tol mu : ℝ) (hkT : 0 < kT) (heps : 0 ≤ eps) (htol : 0 < tol)
    (hsmall : N * (2 * d * (eps / kT) + eta) ≤ tol / 4) (hnot : ¬ |electrons g e kT mu - n| < tol) :
    objective f e kT n (update g d e kT eps n mu) ≤ objective f e kT n mu - tol ^ 2 * kT / (16 * N * d) := by
  have hNr : (0 : ℝ) < N := by exact_mod_cast hN
  have hd := H.dpos
  -- curvatures
  set w : Fin N → ℝ := weights g d e kT eps mu with hw
  have hvc : ∀ i, (e i - mu) / kT ≠ 0 → (1 / 2 - f ((e i - mu) / kT)) / ((e i - mu) / kT) ≤ 10 / 9 * (kT * w i) := by
    intro i hne
    have hxi : e i - mu ≠ 0 := fun h => hne (by rw [h, zero_div])
    rw [hw]
    unfold weights
    split
    · have h1 := H.low _ hne
      have e1 : kT * ((g 0 - g ((e i - mu) / kT)) / (e i - mu)) =
          (1 / 2 - g ((e i - mu) / kT)) / ((e i - mu) / kT) := by
        rw [H.zero]
        field_simp
      rw [e1]
      linarith
    · have e1 : kT * (d / kT) = d := by field_simp
      rw [e1]
      have h2 : (1 / 2 - f ((e i - mu) / kT)) / ((e i - mu) / kT) ≤ d := by
        rcases lt_or_gt_of_ne hne with h | h
        · rw [← chord_neg H]
          exact H.steep _ (by linarith)
        · exact H.steep _ h
      linarith
  have hvd : ∀ i, (e i - mu) / kT = 0 → d ≤ 10 / 9 * (kT * w i) := by
    intro i h0
    have hxi : e i - mu = 0 := by
      rcases div_eq_zero_iff.1 h0 with h | h
      · exact h
      · exact absurd h hkT.ne'
    rw [hw]
    unfold weights
    rw [hxi, abs_zero, if_neg (not_lt.2 heps)]
    have e1 : kT * (d / kT) = d := by field_simp
    rw [e1]
    linarith
  have hvpos : ∀ x, x ≠ 0 → 0 < (1 / 2 - f x) / x := by
    intro x hx
    rcases lt_or_gt_of_ne hx with h | h
    · rw [← chord_neg H]
      exact div_pos (by linarith [H.pos (-x) (by linarith)]) (by linarith)
    · exact div_pos (by linarith [H.pos x h]) h
  have hwpos : ∀ i, 0 < w i := by
    intro i
    by_cases h0 : (e i - mu) / kT = 0
    · have := hvd i h0
      have : 0 < kT * w i := by linarith
      exact pos_of_mul_pos_right this hkT.le
    · have := hvc i h0
      have h1 := hvpos _ h0
      have : 0 < kT * w i := by linarith
      exact pos_of_mul_pos_right this hkT.le
  have hwle : ∀ i, w i ≤ d / kT := by
    intro i
    rw [hw]
    unfold weights
    split
    · rename_i h
      have hxi : e i - mu ≠ 0 := by
        intro h'
        rw [h', abs_zero] at h
        exact absurd heps (not_le.2 h)
      have h1 := H.high ((e i - mu) / kT) (div_ne_zero hxi hkT.ne')
      rw [H.zero, le_div_iff₀ hkT]
      have e1 : (1 / 2 - g ((e i - mu) / kT)) / (e i - mu) * kT =
          (1 / 2 - g ((e i - mu) / kT)) / ((e i - mu) / kT) := by field_simp
      rw [e1]
      exact h1
    · exact le_refl _
  set W := ∑ i, w i with hW
  have hWpos : 0 < W := by
    rw [hW]
    haveI : Nonempty (Fin N) := ⟨⟨0, hN⟩⟩
    exact Finset.sum_pos (fun i _ => hwpos i) Finset.univ_nonempty
  have hWle : W ≤ N * d / kT := by
    calc W ≤ ∑ _i : Fin N, d / kT := Finset.sum_le_sum fun i _ => hwle i
      _ = N * d / kT := by
        rw [Finset.sum_const, Finset.card_univ, Fintype.card_fin, nsmul_eq_mul, mul_div_assoc]
  set Ft := ∑ i, (g 0 - (e i - mu) * w i) with hFt
  have hgd : ∀ x, |1 / 2 - g x| ≤ d * |x| := by
    intro x
    rcases eq_or_ne x 0 with rfl | hx
    · rw [H.zero]
      simp
    · have h1 := H.high x hx
      have h2 := H.low x hx
      have h3 := hvpos x hx
      have h4 : 0 ≤ (1 / 2 - g x) / x := by linarith
      have h5 : |1 / 2 - g x| = (1 / 2 - g x) / x * |x| := by
        conv_rhs => rw [← abs_of_nonneg h4]
        rw [← abs_mul, div_mul_cancel₀ _ hx]
      rw [h5]
      exact mul_le_mul_of_nonneg_right h1 (abs_nonneg x)
  have herr1 : |Ft - electrons g e kT mu| ≤ N * (2 * d * (eps / kT)) := by
    rw [hFt]
    unfold electrons
    rw [← Finset.sum_sub_distrib]
    refine (Finset.abs_sum_le_sum_abs _ _).trans ?_
    have hq : 0 ≤ eps / kT := by positivity
    calc ∑ i, |g 0 - (e i - mu) * w i - g ((e i - mu) / kT)| ≤ ∑ _i : Fin N, 2 * d * (eps / kT) := by
          apply Finset.sum_le_sum
          intro i _
          rw [hw]
          unfold weights
          split
          · rename_i h
            have hxi : e i - mu ≠ 0 := by
              intro h'
              rw [h', abs_zero] at h
              exact absurd heps (not_le.2 h)
            have : g 0 - (e i - mu) * ((g 0 - g ((e i - mu) / kT)) / (e i - mu)) - g ((e i - mu) / kT) = 0 := by
              field_simp
              ring
            rw [this, abs_zero]
            positivity
          · rename_i h
            push Not at h
            have h1 := hgd ((e i - mu) / kT)
            have h2 : |(e i - mu) / kT| ≤ eps / kT := by
              rw [abs_div, abs_of_pos hkT]
              exact div_le_div_of_nonneg_right h hkT.le
            have h3 : |(e i - mu) * (d / kT)| = d * |(e i - mu) / kT| := by
              rw [show (e i - mu) * (d / kT) = d * ((e i - mu) / kT) by ring, abs_mul, abs_of_pos hd]
            rw [H.zero, show 1 / 2 - (e i - mu) * (d / kT) - g ((e i - mu) / kT) =
              (1 / 2 - g ((e i - mu) / kT)) - (e i - mu) * (d / kT) by ring]
            have h4 := abs_sub (1 / 2 - g ((e i - mu) / kT)) ((e i - mu) * (d / kT))
            have h5 := mul_le_mul_of_nonneg_left h2 hd.le
            linarith
      _ = N * (2 * d * (eps / kT)) := by
        rw [Finset.sum_const, Finset.card_univ, Fintype.card_fin, nsmul_eq_mul]
  have herr2 : |electrons g e kT mu - electrons f e kT mu| ≤ N * eta := by
    unfold electrons
    rw [← Finset.sum_sub_distrib]
    refine (Finset.abs_sum_le_sum_abs _ _).trans ?_
    calc ∑ i, |g ((e i - mu) / kT) - f ((e i - mu) / kT)| ≤ ∑ _i : Fin N, eta :=
          Finset.sum_le_sum fun i _ => H.near _
      _ = N * eta := by
        rw [Finset.sum_const, Finset.card_univ, Fintype.card_fin, nsmul_eq_mul]
  set F := electrons f e kT mu with hF
  have heta : 0 ≤ eta := (abs_nonneg _).trans (H.near 0)
  have hNeta : 0 ≤ N * eta := by positivity
  have hNeps : 0 ≤ N * (2 * d * (eps / kT)) := by positivity
  have hD1 : |Ft - F| ≤ tol / 4 := by
    have := abs_add_le (Ft - electrons g e kT mu) (electrons g e kT mu - F)
    rw [show Ft - electrons g e kT mu + (electrons g e kT mu - F) = Ft - F by ring] at this
    linarith
  have hD2 : 3 / 4 * tol ≤ |Ft - n| := by
    have := abs_sub (Ft - n) (Ft - electrons g e kT mu)
    rw [show Ft - n - (Ft - electrons g e kT mu) = electrons g e kT mu - n by ring] at this
    push Not at hnot
    linarith
  have hup : update g d e kT eps n mu = mu + (n - Ft) / W := update_eq g d e kT eps n mu hWpos.ne'
  rw [hup]
  set s := (n - Ft) / W with hs
  have hmaj : objective f e kT n (mu + s) ≤ objective f e kT n mu + (F - n) * s + 5 / 9 * W * s ^ 2 := by
    have h1 : ∑ i, pot f ((e i - (mu + s)) / kT) ≤ ∑ i, (pot f ((e i - mu) / kT) + f ((e i - mu) / kT) * (s / kT) +
        5 / 9 * (kT * w i) * (s / kT) ^ 2) := by
      apply Finset.sum_le_sum
      intro i _
      have := majorant H ((e i - mu) / kT) ((e i - (mu + s)) / kT) (10 / 9 * (kT * w i)) (hvc i) (hvd i)
      have e1 : (e i - (mu + s)) / kT - (e i - mu) / kT = -(s / kT) := by ring
      rw [e1] at this
      linarith
    rw [Finset.sum_add_distrib, Finset.sum_add_distrib, ← Finset.sum_mul, ← Finset.sum_mul, ← Finset.mul_sum,
      ← Finset.mul_sum] at h1
    have h2 := mul_le_mul_of_nonneg_left h1 hkT.le
    unfold objective
    have e2 : kT * (∑ i, pot f ((e i - mu) / kT) + (∑ i, f ((e i - mu) / kT)) * (s / kT) +
        5 / 9 * (kT * ∑ i, w i) * (s / kT) ^ 2) = kT * ∑ i, pot f ((e i - mu) / kT) + F * s + 5 / 9 * W * s ^ 2 := by
      rw [hF, hW]
      unfold electrons
      field_simp
    rw [e2] at h2
    linarith
  have hfin : (F - n) * s + 5 / 9 * W * s ^ 2 ≤ -(tol ^ 2 * kT / (16 * N * d)) := by
    have e3 : (F - n) * s + 5 / 9 * W * s ^ 2 = (-(4 / 9) * (Ft - n) ^ 2 + (Ft - F) * (Ft - n)) / W := by
      rw [hs]
      field_simp
      ring
    have h4 : (Ft - F) * (Ft - n) ≤ 1 / 3 * (Ft - n) ^ 2 := by
      have h5 : (Ft - F) * (Ft - n) ≤ |Ft - F| * |Ft - n| := by
        rw [← abs_mul]
        exact le_abs_self _
      have h6 : |Ft - F| ≤ 1 / 3 * |Ft - n| := by linarith
      have h7 := mul_le_mul_of_nonneg_right h6 (abs_nonneg (Ft - n))
      have h8 : |Ft - n| * |Ft - n| = (Ft - n) ^ 2 := by rw [← sq, sq_abs]
      nlinarith
    have h9 : 9 / 16 * tol ^ 2 ≤ (Ft - n) ^ 2 := by
      rw [← sq_abs (Ft - n)]
      nlinarith
    have h10 : tol ^ 2 * kT / (16 * N * d) = tol ^ 2 / 16 / (N * d / kT) := by field_simp
    rw [e3, h10, div_le_iff₀ hWpos]
    have h11 : tol ^ 2 / 16 / (N * d / kT) * W ≤ tol ^ 2 / 16 := by
      rw [div_mul_eq_mul_div, div_le_iff₀ (by positivity)]
      exact mul_le_mul_of_nonneg_left hWle (by positivity)
    linarith
  linarith

theorem fermiLoop_terminates {N : Nat} (hN : 0 < N) {f g : ℝ → ℝ} {d eta : ℝ} (H : Chord f g d eta)
    (e : Fin N → ℝ) (kT eps n tol mu0 : ℝ) (hkT : 0 < kT) (heps : 0 ≤ eps) (htol : 0 < tol)
    (hsmall : N * (2 * d * (eps / kT) + eta) ≤ tol / 4) (hsol : electrons f e kT mu0 = n) (mu : ℝ) :
    ∃ fuel mu', fermiLoop g d e kT eps n tol fuel mu = some mu' := by
  have hNr : (0 : ℝ) < N := by exact_mod_cast hN
  have hd := H.dpos
  set c := tol ^ 2 * kT / (16 * N * d) with hc
  have hcpos : 0 < c := by positivity
  have key : ∀ m : Nat, ∀ mu, objective f e kT n mu < objective f e kT n mu0 + m * c →
      ∃ fuel mu', fermiLoop g d e kT eps n tol fuel mu = some mu' := by
    intro m
    induction m with
    | zero =>
      intro mu h
      have := objective_min H e kT n mu0 hkT hsol mu
      simp at h
      linarith
    | succ m ih =>
      intro mu h
      by_cases hdone : |electrons g e kT mu - n| < tol
      · exact ⟨1, mu, by rw [fermiLoop, if_pos hdone]⟩
      · have hstep := objective_step hN H e kT eps n tol mu hkT heps htol hsmall hdone
        obtain ⟨fuel, mu', hf⟩ := ih (update g d e kT eps n mu) (by push_cast at h; linarith)
        exact ⟨fuel + 1, mu', by rw [fermiLoop, if_neg hdone, hf]⟩
  obtain ⟨m, hm⟩ := exists_nat_gt ((objective f e kT n mu - objective f e kT n mu0) / c)
  apply key m
  rw [div_lt_iff₀ hcpos] at hm
  linarith

theorem exists_solution {N : Nat} (f : ℝ → ℝ) (hc : Continuous f) (ht : Tendsto f atTop (𝓝 0))
    (hb : Tendsto f atBot (𝓝 1)) (e : Fin N → ℝ) (kT n : ℝ) (hkT : 0 < kT) (h0 : 0 < n) (h1 : n < N) :
    ∃ mu, electrons f e kT mu = n := by
  have hcont : Continuous fun mu => electrons f e kT mu := by
    unfold electrons
    fun_prop
  have htop : Tendsto (fun mu => electrons f e kT mu) atTop (𝓝 (N : ℝ)) := by
    have : Tendsto (fun mu => ∑ i : Fin N, f ((e i - mu) / kT)) atTop (𝓝 (∑ _i : Fin N, (1 : ℝ))) := by
      apply tendsto_finsetSum
      intro i _
      apply hb.comp
      apply Tendsto.atBot_div_const hkT
      exact tendsto_const_nhds.add_atBot tendsto_neg_atTop_atBot
    simpa [electrons] using this
  have hbot : Tendsto (fun mu => electrons f e kT mu) atBot (𝓝 0) := by
    have : Tendsto (fun mu => ∑ i : Fin N, f ((e i - mu) / kT)) atBot (𝓝 (∑ _i : Fin N, (0 : ℝ))) := by
      apply tendsto_finsetSum
      intro i _
      apply ht.comp
      apply Tendsto.atTop_div_const hkT
      exact tendsto_const_nhds.add_atTop tendsto_neg_atBot_atTop
    simpa [electrons] using this
  obtain ⟨a, ha⟩ := (hbot.eventually (gt_mem_nhds h0)).exists
  obtain ⟨b, hb⟩ := (htop.eventually (lt_mem_nhds h1)).exists
  exact mem_range_of_exists_le_of_exists_ge hcont ⟨a, ha.le⟩ ⟨b, hb.le⟩

theorem findFermiLevel_terminates {f g : ℝ → ℝ} {d eta : ℝ} (H : Chord f g d eta)
    (ht : Tendsto f atTop (𝓝 0)) (hbt : Tendsto f atBot (𝓝 1))
    (nk bands : Nat) (hk : 0 < nk) (hb : 0 < bands) (e : Fin (nk * bands) → ℝ) (lo hi kT eps n tol : ℝ)
    (mu0 : Option ℝ) (hkT : 0 < kT) (heps : 0 ≤ eps) (htol : 0 < tol) (h0 : 0 < n) (h1 : n < 2 * bands)
    (hsmall : bands * (2 * d * (eps / kT) + eta) ≤ tol / 8) :
    ∃ fuel mu, findFermiLevel nk bands g d e lo hi kT eps n tol mu0 fuel = some mu ∧
      |density nk bands g e kT mu - n| < tol := by
  have hkr : (0 : ℝ) < nk := by exact_mod_cast hk
  obtain ⟨mu1, hmu1⟩ := exists_solution f H.cont ht hbt e kT (n * (nk / 2)) hkT (by positivity)
    (by push_cast; nlinarith)
  obtain ⟨fuel, mu, h⟩ := fermiLoop_terminates (Nat.mul_pos hk hb) H e kT eps (n * (nk / 2)) (tol * (nk / 2)) mu1
    hkT heps (by positivity) (by
      push_cast
      have := mul_le_mul_of_nonneg_left hsmall hkr.le
      linarith) hmu1 (mu0.getD (guess (nk * bands) lo hi (n * (nk / 2))))
  refine ⟨fuel, mu, ?_, density_of nk bands hk g e kT mu n tol (fermiLoop_spec _ _ _ _ _ _ _ _ _ _ h)⟩
  unfold findFermiLevel
  simp only
  rw [scale_eq nk bands hb]
  exact h

theorem chord_of {f δ : ℝ → ℝ} (hS : SmoothStep f) (hδ : ∀ x, HasDerivAt f (-δ x) x)
    (hA : ∀ x y, 0 ≤ x → x ≤ y → δ y ≤ δ x) (h0 : 0 < δ 0) : Chord f f (δ 0) 0 := by
  have hf0 : f 0 = 1 / 2 := by
    have := hS.symm 0
    rw [neg_zero] at this
    linarith
  have hder : ∀ x, HasDerivAt (fun x => 1 / 2 - f x) (δ x) x := by
    intro x
    have := (hδ x).const_sub (1 / 2)
    rwa [neg_neg] at this
  have hconc : ConcaveOn ℝ (Set.Ici 0) fun x => 1 / 2 - f x := by
    apply AntitoneOn.concaveOn_of_deriv (convex_Ici 0)
    · exact (continuous_iff_continuousAt.2 fun y => (hder y).continuousAt).continuousOn
    · intro z _
      exact (hder z).differentiableAt.differentiableWithinAt
    · intro x hx y hy hxy
      rw [(hder x).deriv, (hder y).deriv]
      rw [interior_Ici] at hx
      exact hA x y (le_of_lt hx) hxy
  have hchord : ∀ x y, 0 < x → x ≤ y → (1 / 2 - f y) / y ≤ (1 / 2 - f x) / x := by
    intro x y hx hxy
    have hy : 0 < y := hx.trans_le hxy
    have hxy1 : 0 ≤ 1 - x / y := by
      rw [sub_nonneg, div_le_one hy]
      exact hxy
    have hxy2 : 0 ≤ x / y := by positivity
    have h := hconc.2 (Set.mem_Ici.2 (le_refl (0 : ℝ))) (Set.mem_Ici.2 hy.le) hxy1 hxy2 (by ring)
    simp only [smul_eq_mul, mul_zero, zero_add, hf0, sub_self] at h
    rw [div_mul_cancel₀ _ hy.ne'] at h
    rw [div_le_div_iff₀ hy hx]
    have h2 := mul_le_mul_of_nonneg_right h hy.le
    have h3 : x / y * (1 / 2 - f y) * y = (1 / 2 - f y) * x := by field_simp
    linarith
  have hsteep : ∀ x, 0 < x → (1 / 2 - f x) / x ≤ δ 0 := by
    intro x hx
    rw [div_le_iff₀ hx]
    have hM : MonotoneOn (fun x => δ 0 * x - (1 / 2 - f x)) (Set.Ici 0) := by
      have hd' : ∀ y, HasDerivAt (fun x => δ 0 * x - (1 / 2 - f x)) (δ 0 * 1 - δ y) y := fun y =>
        ((hasDerivAt_id y).const_mul (δ 0)).sub (hder y)
      apply monotoneOn_of_deriv_nonneg (convex_Ici _)
      · exact (continuous_iff_continuousAt.2 fun y => (hd' y).continuousAt).continuousOn
      · intro z _
        exact (hd' z).differentiableAt.differentiableWithinAt
      · intro z hz
        rw [interior_Ici] at hz
        rw [(hd' z).deriv]
        have := hA 0 z (le_refl _) (le_of_lt hz)
        linarith
    have := hM (Set.mem_Ici.2 (le_refl (0 : ℝ))) (Set.mem_Ici.2 hx.le) hx.le
    simp only [mul_zero, hf0, sub_self] at this
    linarith
  have hpos : ∀ x, 0 < x → f x < 1 / 2 := by
    intro x hx
    rw [← hf0]
    exact hS.anti hx
  have hvneg : ∀ x, (1 / 2 - f (-x)) / (-x) = (1 / 2 - f x) / x := by
    intro x
    rw [show f (-x) = 1 - f x by linarith [hS.symm x], show (1 / 2 - (1 - f x)) = -(1 / 2 - f x) by ring,
      neg_div_neg_eq]
  have hvpos : ∀ x, x ≠ 0 → 0 < (1 / 2 - f x) / x := by
    intro x hx
    rcases lt_or_gt_of_ne hx with h | h
    · rw [← hvneg]
      exact div_pos (by linarith [hpos (-x) (by linarith)]) (by linarith)
    · exact div_pos (by linarith [hpos x h]) h
  refine ⟨continuous_iff_continuousAt.2 fun y => (hδ y).continuousAt, hS.anti.antitone, hS.symm, hchord, hpos,
    hsteep, h0, hf0, ?_, ?_, ?_⟩
  · intro x
    simp
  · intro x hx
    linarith [hvpos x hx]
  · intro x hx
    rcases lt_or_gt_of_ne hx with h | h
    · rw [← hvneg]
      exact hsteep _ (by linarith)
    · exact hsteep x h

theorem chord_gauss : Chord gauss gauss (gaussDelta 0) 0 := by
  apply chord_of C35_gauss (fun x => (C36_gauss x).1)
  · intro x y hx hxy
    unfold gaussDelta
    apply div_le_div_of_nonneg_right _ sqrt_pi_pos.le
    apply Real.exp_le_exp.2
    nlinarith
  · exact gaussDelta_pos 0

theorem chord_lorentz : Chord lorentz lorentz (lorentzDelta 0) 0 := by
  have hpi := Real.pi_pos
  apply chord_of C35_lorentz (fun x => (C36_lorentz x).1)
  · intro x y hx hxy
    unfold lorentzDelta
    apply one_div_le_one_div_of_le
    · nlinarith [mul_self_nonneg x, mul_pos hpi hpi]
    · nlinarith
  · unfold lorentzDelta
    have := mul_pos hpi hpi
    rw [mul_zero, zero_add]
    positivity

theorem chord_fermi : Chord fermi fermi (1 / 4) 0 := by
  have h0 : (fun x => 1 / (2 * Real.cosh x + 2)) 0 = (1 / 4 : ℝ) := by
    simp only [Real.cosh_zero]
    norm_num
  rw [← h0]
  apply chord_of fermi_smoothStep fd_hasDerivAt
  · intro x y hx hxy
    have h1 := Real.cosh_pos x
    have h2 : Real.cosh x ≤ Real.cosh y := by
      rw [Real.cosh_le_cosh, abs_of_nonneg hx, abs_of_nonneg (hx.trans hxy)]
      exact hxy
    apply one_div_le_one_div_of_le
    · positivity
    · linarith
  · simp only [Real.cosh_zero]
    norm_num

theorem exp_709 : Real.exp (-709) ≤ 1 / 10 ^ 9 := by
  rw [Real.exp_neg, ← one_div]
  apply one_div_le_one_div_of_le (by norm_num)
  have h1 := Real.add_one_le_exp (709 / 10 : ℝ)
  have h2 : Real.exp 709 = Real.exp (709 / 10) ^ 10 := by
    rw [← Real.exp_nat_mul]
    congr 1
    norm_num
  rw [h2]
  calc (10 : ℝ) ^ 9 ≤ (709 / 10 + 1) ^ 10 := by norm_num
    _ ≤ _ := pow_le_pow_left₀ (by norm_num) h1 10

theorem chord_fermiDirac : Chord fermi fermiDirac (1 / 4) (Real.exp (-709)) := by
  have H := chord_fermi
  have hE := exp_709
  refine ⟨H.cont, H.anti, H.symm, H.chord, H.pos, H.steep, H.dpos, ?_, ?_, ?_, ?_⟩
  · rw [fermiDirac_eq 0 (by unfold xmax; norm_num)]
    exact H.zero
  · intro x
    obtain ⟨_, _, _, _, h1, h2⟩ := C35_fermi_dirac x
    rw [abs_of_nonneg h1]
    exact h2.le
  · intro x hx
    rcases le_total x xmax with h | h
    · rw [fermiDirac_eq x h]
      exact H.low x hx
    · have hx0 : 0 < x := lt_of_lt_of_le (by unfold xmax; norm_num) h
      obtain ⟨_, _, _, _, h1, h2⟩ := C35_fermi_dirac x
      have h3 : fermiDirac x < Real.exp (-709) := by
        unfold fermiDirac
        rw [min_eq_right h, Real.exp_neg, one_div]
        unfold xmax
        apply inv_strictAnti₀ (Real.exp_pos _)
        linarith
      rw [← mul_div_assoc]
      apply div_le_div_of_nonneg_right _ hx0.le
      have := fermi_smoothStep.pos x
      linarith
  · intro x hx
    rcases le_total x xmax with h | h
    · rw [fermiDirac_eq x h]
      exact H.high x hx
    · have hx0 : 0 < x := lt_of_lt_of_le (by unfold xmax; norm_num) h
      obtain ⟨_, _, _, _, h1, h2⟩ := C35_fermi_dirac x
      refine le_trans ?_ (H.high x hx)
      apply div_le_div_of_nonneg_right _ hx0.le
      linarith

theorem fermiDiracDelta_zero : fermiDiracDelta 0 = 1 / 4 := by
  unfold fermiDiracDelta
  rw [abs_zero, min_eq_left (by unfold xmax; norm_num), Real.cosh_zero]
  norm_num

/-- C38 (termination, Fermi-Dirac). For any bands that are neither empty nor full, any temperature and any
starting point, `find_Fermi_level` returns a chemical potential with the requested number of electrons, unless
the tolerance is as small as the errors made by `eps` and by the overflow guard. -/
theorem C38_terminates_fermi_dirac (nk bands : Nat) (hk : 0 < nk) (hb : 0 < bands) (e : Fin (nk * bands) → ℝ)
    (lo hi kT eps n tol : ℝ) (mu0 : Option ℝ) (hkT : 0 < kT) (heps : 0 ≤ eps) (htol : 0 < tol) (h0 : 0 < n)
    (h1 : n < 2 * bands) (hsmall : bands * (eps / (2 * kT) + Real.exp (-709)) ≤ tol / 8) :
    ∃ fuel mu, findFermiLevel nk bands fermiDirac (fermiDiracDelta 0) e lo hi kT eps n tol mu0 fuel = some mu ∧
      |density nk bands fermiDirac e kT mu - n| < tol := by
  rw [fermiDiracDelta_zero]
  apply findFermiLevel_terminates chord_fermiDirac fermi_smoothStep.top fermi_smoothStep.bot nk bands hk hb e lo hi
    kT eps n tol mu0 hkT heps htol h0 h1
  have : 2 * (1 / 4) * (eps / kT) = eps / (2 * kT) := by
    field_simp
    norm_num
  rw [this]
  exact hsmall

/-- The default parameters satisfy the hypotheses of `C38_terminates_fermi_dirac`, e.g., for 20 bands. -/
example : ((20 : Nat) : ℝ) * (1e-10 / (2 * 0.025) + Real.exp (-709)) ≤ 1e-5 / 8 := by
  have := exp_709
  norm_num at this ⊢
  linarith

/-- C38 (termination, Gaussian). -/
theorem C38_terminates_gauss (nk bands : Nat) (hk : 0 < nk) (hb : 0 < bands) (e : Fin (nk * bands) → ℝ)
    (lo hi kT eps n tol : ℝ) (mu0 : Option ℝ) (hkT : 0 < kT) (heps : 0 ≤ eps) (htol : 0 < tol) (h0 : 0 < n)
    (h1 : n < 2 * bands) (hsmall : bands * (2 * gaussDelta 0 * (eps / kT)) ≤ tol / 8) :
    ∃ fuel mu, findFermiLevel nk bands gauss (gaussDelta 0) e lo hi kT eps n tol mu0 fuel = some mu ∧
      |density nk bands gauss e kT mu - n| < tol := by
  apply findFermiLevel_terminates chord_gauss C35_gauss.top C35_gauss.bot nk bands hk hb e lo hi
    kT eps n tol mu0 hkT heps htol h0 h1
  rw [add_zero]
  exact hsmall

example : ((20 : Nat) : ℝ) * (2 * gaussDelta 0 * (1e-10 / 0.025)) ≤ 1e-5 / 8 := by
  have h : gaussDelta 0 ≤ 1 := by
    unfold gaussDelta
    rw [mul_zero, Real.exp_zero, div_le_one sqrt_pi_pos]
    rw [Real.one_le_sqrt]
    linarith [Real.pi_gt_three]
  norm_num
  linarith

/-- C38 (termination, Lorentz). -/
theorem C38_terminates_lorentz (nk bands : Nat) (hk : 0 < nk) (hb : 0 < bands) (e : Fin (nk * bands) → ℝ)
    (lo hi kT eps n tol : ℝ) (mu0 : Option ℝ) (hkT : 0 < kT) (heps : 0 ≤ eps) (htol : 0 < tol) (h0 : 0 < n)
    (h1 : n < 2 * bands) (hsmall : bands * (2 * lorentzDelta 0 * (eps / kT)) ≤ tol / 8) :
    ∃ fuel mu, findFermiLevel nk bands lorentz (lorentzDelta 0) e lo hi kT eps n tol mu0 fuel = some mu ∧
      |density nk bands lorentz e kT mu - n| < tol := by
  apply findFermiLevel_terminates chord_lorentz C35_lorentz.top C35_lorentz.bot nk bands hk hb e lo hi
    kT eps n tol mu0 hkT heps htol h0 h1
  rw [add_zero]
  exact hsmall

example : ((20 : Nat) : ℝ) * (2 * lorentzDelta 0 * (1e-10 / 0.025)) ≤ 1e-5 / 8 := by
  have h : lorentzDelta 0 ≤ 1 := by
    unfold lorentzDelta
    rw [mul_zero, zero_add, div_le_one (by positivity)]
    nlinarith [Real.pi_gt_three]
  norm_num
  linarith

/-! ### Requests that cannot be met -/

/-- If more electrons are requested than there is room for, no iterate is ever returned. -/
theorem C38_impossible (nk bands : Nat) (hk : 0 < nk) (hb : 0 < bands) (f : ℝ → ℝ) (hf : ∀ x, 0 ≤ f x ∧ f x ≤ 1)
    (delta0 : ℝ) (e : Fin (nk * bands) → ℝ) (lo hi kT eps damp n tol : ℝ) (mu0 : Option ℝ)
    (hn : n ≤ -tol ∨ 2 * bands + tol ≤ n) (fuel : Nat) :
    findFermiLevel nk bands f delta0 e lo hi kT eps n tol mu0 fuel = none ∧
    findFermiLevelSimple nk bands f e lo hi kT damp n tol mu0 fuel = none := by
  have hkr : (0 : ℝ) < nk := by exact_mod_cast hk
  have key : ∀ mu, ¬ |density nk bands f e kT mu - n| < tol := by
    intro mu h
    have hd0 : 0 ≤ density nk bands f e kT mu := by
      unfold density
      have := Finset.sum_nonneg fun (i : Fin (nk * bands)) (_ : i ∈ Finset.univ) => (hf ((e i - mu) / kT)).1
      positivity
    have hd1 : density nk bands f e kT mu ≤ 2 * bands := by
      unfold density
      have := Finset.sum_le_sum fun (i : Fin (nk * bands)) (_ : i ∈ Finset.univ) => (hf ((e i - mu) / kT)).2
      rw [Finset.sum_const, Finset.card_univ, Fintype.card_fin, nsmul_eq_mul, mul_one] at this
      push_cast at this
      rw [div_le_iff₀ hkr]
      linarith
    rw [abs_lt] at h
    rcases hn with h' | h' <;> linarith
  constructor
  · cases h : findFermiLevel nk bands f delta0 e lo hi kT eps n tol mu0 fuel with
    | none => rfl
    | some mu => exact absurd (C38_returns nk bands hk hb f delta0 e lo hi kT eps damp n tol mu0 fuel mu (Or.inl h)) (key mu)
  · cases h : findFermiLevelSimple nk bands f e lo hi kT damp n tol mu0 fuel with
    | none => rfl
    | some mu => exact absurd (C38_returns nk bands hk hb f delta0 e lo hi kT eps damp n tol mu0 fuel mu (Or.inr h)) (key mu)

example : (∀ x, 0 ≤ fermiDirac x ∧ fermiDirac x ≤ 1) ∧ (2 * ((2 : Nat) : ℝ) + 1e-5 ≤ 4.5) :=
  ⟨fun x => ⟨(C35_fermi_dirac x).1.le, (C35_fermi_dirac x).2.1.le⟩, by norm_num⟩

/-! ### Names -/

/-- Specification: documented names of smearing functions. -/
def names {F : Type} : List (String × Smearing F) := [("gaussian", .gauss), ("gauss", .gauss),
  ("methfessel-paxton", .methfesselPaxton), ("m-p", .methfesselPaxton), ("mp", .methfesselPaxton),
  ("marzari-vanderbilt", .marzariVanderbilt), ("cold", .marzariVanderbilt), ("m-v", .marzariVanderbilt),
  ("mv", .marzariVanderbilt), ("fermi-dirac", .fermiDirac), ("f-d", .fermiDirac), ("fd", .fermiDirac),
  ("lorentzian", .lorentz), ("lorentz", .lorentz), ("heaviside", .heaviside)]

/-- C39. Names select the documented functions, whatever their case, and functions are returned unchanged. -/
theorem C39_names {F : Type} (s : String) (x : Smearing F) :
    (smearing (.str s) = some x ↔ (s.toLower, x) ∈ names) ∧ ∀ f : F, smearing (.other f) = some (.custom f) := by
  refine ⟨?_, fun f => rfl⟩
  unfold smearing names
  simp only
  generalize s.toLower = t
  simp only [List.mem_cons, List.not_mem_nil, or_false, Prod.mk.injEq]
  constructor
  · intro h
    split at h
    · rcases ‹t = _ ∨ _› with rfl | rfl <;> simp_all
    split at h
    · rcases ‹t = _ ∨ _› with rfl | rfl | rfl <;> simp_all
    split at h
    · rcases ‹t = _ ∨ _› with rfl | rfl | rfl | rfl <;> simp_all
    split at h
    · rcases ‹t = _ ∨ _› with rfl | rfl | rfl <;> simp_all
    split at h
    · rcases ‹t = _ ∨ _› with rfl | rfl <;> simp_all
    split at h
    · simp_all
    · cases h
  · rintro (⟨rfl, rfl⟩ | ⟨rfl, rfl⟩ | ⟨rfl, rfl⟩ | ⟨rfl, rfl⟩ | ⟨rfl, rfl⟩ | ⟨rfl, rfl⟩ | ⟨rfl, rfl⟩ | ⟨rfl, rfl⟩ |
      ⟨rfl, rfl⟩ | ⟨rfl, rfl⟩ | ⟨rfl, rfl⟩ | ⟨rfl, rfl⟩ | ⟨rfl, rfl⟩ | ⟨rfl, rfl⟩ | ⟨rfl, rfl⟩) <;> simp

example : smearing (F := Unit) (.str "Fermi-Dirac") = some .fermiDirac := by decide +kernel

/-- C39 is violated: an unknown name is not rejected; `None` is returned. -/
theorem C39_unknown_violated : smearing (F := Unit) (.str "fermidirac") = none := by decide +kernel

end Verif.Occ
