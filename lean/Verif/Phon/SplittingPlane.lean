import Verif.Phon.SplittingLimits

/-!
# Property C173: no splitting in two dimensions
-/

namespace Verif.Phon.Splitting

open Verif.Fourier Filter Topology
open Verif.Voronoi (V3)
open Verif.Phon.Super (Dual gVec_inj)

variable {n : Nat}

/-- Specification: the out-of-plane response has no pole at the wave vector. -/
def NoPole (p : Polar n) (K : Fin 3 → ℝ) : Prop :=
  ∀ l, p.L = some l → p.perp = true →
    2 / (1 + Real.exp (Real.sqrt (∑ x, K x ^ 2) * l)) * Real.sqrt (∑ x, K x ^ 2) * ((p.eps 2 2 - 1) / p.b 2 2 / 2) ≠ 1

theorem sqrt_keK (p : Polar n) (h2 : p.lr2d = true) (K : Fin 3 → ℝ) : Real.sqrt (keK p K) = norm3 K := by
  unfold keK norm3
  rw [h2, if_pos rfl]

theorem dot_norm (p : Polar n) (z : Fin n → Fin 3 → Fin 3 → ℝ) (qu : Option (Fin n → Fin 3 → Fin 3 → Fin 3 → ℝ)) (a : Fin n) (u : Fin 3) :
    ∃ A B : ℝ, 0 ≤ A ∧ 0 ≤ B ∧ ∀ K, ‖dotFactor p z qu K a u‖ ≤ norm3 K * (A + B * norm3 K) := by
  obtain ⟨A, B, hA, hB, h⟩ := dot_bound p z qu a u
  refine ⟨A, B, hA, hB, fun K => ?_⟩
  obtain ⟨c, e, h1, h2⟩ := h K
  rw [e]
  refine (norm_add_le _ _).trans ?_
  rw [norm_mul, Complex.norm_I, one_mul, Complex.norm_real, Complex.norm_real, Real.norm_eq_abs, Real.norm_eq_abs]
  calc _ ≤ A * norm3 K + B * norm3 K ^ 2 := add_le_add h1 h2
    _ = _ := by ring

theorem continuous_tanhFactor (p : Polar n) (l : ℝ) : Continuous (tanhFactor p l) := by
  have hk := continuous_keK p
  rw [show tanhFactor p l = fun K => 2 / (1 + Real.exp (Real.sqrt (keK p K) * l)) from funext fun K => tanhFactor_eq p l K]
  refine Continuous.div continuous_const (by fun_prop) fun K => ?_
  positivity

theorem tanhFactor_mem (p : Polar n) (l : ℝ) (K : Fin 3 → ℝ) : 0 < tanhFactor p l K ∧ tanhFactor p l K ≤ 2 := by
  rw [tanhFactor_eq]
  have := Real.exp_pos (Real.sqrt (keK p K) * l)
  refine ⟨by positivity, ?_⟩
  rw [div_le_iff₀ (by positivity)]
  linarith

theorem continuous_krK (p : Polar n) : Continuous (krK p) := by
  unfold krK
  fun_prop

/-- Upper bound for the in-plane kernel. -/
theorem factor_bound (p : Polar n) (h2 : p.lr2d = true) (hr : ∀ K, 0 ≤ polarizability p K) (K : Fin 3 → ℝ) (hK : 0 < norm3 K) :
    |factor p K| ≤ |prefactor p| * (2 + Real.exp (-keK p K / scale p)) / norm3 K := by
  have hkr : 0 ≤ krK p K := by
    rw [krK_eq]
    exact hr K
  have hex := Real.exp_pos (-keK p K / scale p)
  unfold factor
  rw [h2]
  cases p.L with
  | none =>
    dsimp only
    rw [sqrt_keK p h2, abs_div, abs_mul, abs_of_pos hex, abs_of_pos (by positivity : 0 < norm3 K + krK p K)]
    refine div_le_div₀ (by positivity) ?_ hK (by linarith)
    exact mul_le_mul_of_nonneg_left (by linarith) (abs_nonneg _)
  | some l =>
    dsimp only
    obtain ⟨t0, t2⟩ := tanhFactor_mem p l K
    have hd : 0 ≤ tanhFactor p l K / norm3 K * krK p K := by positivity
    rw [sqrt_keK p h2, abs_div, abs_div, abs_mul, abs_of_pos t0, abs_of_pos hK,
      abs_of_pos (by linarith : 0 < 1 + tanhFactor p l K / norm3 K * krK p K)]
    refine (div_le_self (by positivity) (by linarith)).trans ?_
    refine div_le_div_of_nonneg_right ?_ hK.le
    exact mul_le_mul_of_nonneg_left (by linarith) (abs_nonneg _)

theorem limit_term (p : Polar n) (h2 : p.lr2d = true) (hr : ∀ K, 0 ≤ polarizability p K) (z : Fin n → Fin 3 → Fin 3 → ℝ)
    (qu : Option (Fin n → Fin 3 → Fin 3 → Fin 3 → ℝ)) (i j : Fin n × Fin 3) :
    Tendsto (fun K => gTerm p z qu K i j) (𝓝 0) (𝓝 0) := by
  obtain ⟨A, B, hA, hB, hi⟩ := dot_norm p z qu i.1 i.2
  obtain ⟨A', B', hA', hB', hj⟩ := dot_norm p z qu j.1 j.2
  have hbound : ∀ K, ‖gTerm p z qu K i j‖ ≤ |prefactor p| * (2 + Real.exp (-keK p K / scale p)) * norm3 K *
      ((A + B * norm3 K) * (A' + B' * norm3 K)) := by
    intro K
    have hs := norm3_nonneg K
    have hex := Real.exp_pos (-keK p K / scale p)
    unfold gTerm
    rw [norm_mul, norm_mul, norm_star, norm_mul, norm_mul, norm_expFactor, norm_expFactor, mul_one, mul_one, Complex.norm_real, Real.norm_eq_abs]
    have hi := hi K
    have hj := hj K
    rcases hs.eq_or_lt with h | h
    · rw [← h, zero_mul] at hi hj
      rw [le_antisymm hi (norm_nonneg _), ← h]
      simp
    · calc |factor p K| * ‖dotFactor p z qu K i.1 i.2‖ * ‖dotFactor p z qu K j.1 j.2‖
          ≤ (|prefactor p| * (2 + Real.exp (-keK p K / scale p)) / norm3 K) * (norm3 K * (A + B * norm3 K)) *
            (norm3 K * (A' + B' * norm3 K)) := by
            refine mul_le_mul (mul_le_mul (factor_bound p h2 hr K h) hi (norm_nonneg _) (by positivity)) hj (norm_nonneg _) (by positivity)
        _ = _ := by
            field_simp
  refine squeeze_zero_norm hbound ?_
  have hcont : Continuous fun K => |prefactor p| * (2 + Real.exp (-keK p K / scale p)) * norm3 K *
      ((A + B * norm3 K) * (A' + B' * norm3 K)) := by
    have := continuous_norm3
    have := continuous_keK p
    fun_prop
  have := hcont.tendsto 0
  rw [norm3_zero] at this
  simpa using this

theorem limit_perp (p : Polar n) (h2 : p.lr2d = true) (z : Fin n → Fin 3 → Fin 3 → ℝ)
    (qu : Option (Fin n → Fin 3 → Fin 3 → Fin 3 → ℝ)) (i j : Fin n × Fin 3) :
    Tendsto (fun K => gTermPerp p z qu K i j) (𝓝 0) (𝓝 0) := by
  unfold gTermPerp
  rw [h2]
  cases p.L with
  | none => exact tendsto_const_nhds
  | some l =>
    cases p.perp with
    | false => exact tendsto_const_nhds
    | true =>
      dsimp only
      obtain ⟨A, B, hA, hB, hi⟩ := perp_bound p h2 z qu i.1 i.2
      obtain ⟨A', B', hA', hB', hj⟩ := perp_bound p h2 z qu j.1 j.2
      have hbound : ∀ K, ‖(factorPerp p l K : ℂ) * star (dotPerp p z qu K i.1 i.2 * expFactor p K i.1) *
          (dotPerp p z qu K j.1 j.2 * expFactor p K j.1)‖ ≤ |prefactor p| * 2 * norm3 K *
          ((A + B * norm3 K) * (A' + B' * norm3 K)) * |1 - tanhFactor p l K * norm3 K * rEff p 2 2|⁻¹ := by
        intro K
        have hs := norm3_nonneg K
        rw [norm_mul, norm_mul, norm_star, norm_mul, norm_mul, norm_expFactor, norm_expFactor, mul_one, mul_one, Complex.norm_real, Real.norm_eq_abs]
        have hi := hi K
        have hj := hj K
        have hd := inv_nonneg.2 (abs_nonneg (1 - tanhFactor p l K * norm3 K * rEff p 2 2))
        rcases hs.eq_or_lt with h | h
        · rw [← h, zero_mul] at hi hj
          rw [le_antisymm hi (norm_nonneg _), ← h]
          simp
        · have hf : |factorPerp p l K| ≤ |prefactor p| * 2 / norm3 K * |1 - tanhFactor p l K * norm3 K * rEff p 2 2|⁻¹ := by
            obtain ⟨t0, t2⟩ := tanhFactor_mem p l K
            unfold factorPerp
            rw [sqrt_keK p h2, abs_div, abs_div, abs_mul, abs_neg, abs_of_pos t0, abs_of_pos h, div_eq_mul_inv (_ / _)]
            refine mul_le_mul_of_nonneg_right ?_ hd
            refine div_le_div_of_nonneg_right ?_ h.le
            exact mul_le_mul_of_nonneg_left t2 (abs_nonneg _)
          calc |factorPerp p l K| * ‖dotPerp p z qu K i.1 i.2‖ * ‖dotPerp p z qu K j.1 j.2‖
              ≤ (|prefactor p| * 2 / norm3 K * |1 - tanhFactor p l K * norm3 K * rEff p 2 2|⁻¹) * (norm3 K * (A + B * norm3 K)) *
                (norm3 K * (A' + B' * norm3 K)) := by
                refine mul_le_mul (mul_le_mul hf hi (norm_nonneg _) (by positivity)) hj (norm_nonneg _) (by positivity)
            _ = _ := by
                field_simp
      refine squeeze_zero_norm hbound ?_
      have hn := continuous_norm3
      have ht := continuous_tanhFactor p l
      have h1 : Tendsto (fun K => |prefactor p| * 2 * norm3 K * ((A + B * norm3 K) * (A' + B' * norm3 K))) (𝓝 0) (𝓝 0) := by
        have hcont : Continuous fun K => |prefactor p| * 2 * norm3 K * ((A + B * norm3 K) * (A' + B' * norm3 K)) := by fun_prop
        have := hcont.tendsto 0
        rw [norm3_zero] at this
        simpa using this
      have h3 : Tendsto (fun K => |1 - tanhFactor p l K * norm3 K * rEff p 2 2|⁻¹) (𝓝 0) (𝓝 1) := by
        have hcont : Continuous fun K => |1 - tanhFactor p l K * norm3 K * rEff p 2 2| := by fun_prop
        have := hcont.tendsto 0
        rw [norm3_zero, mul_zero, zero_mul, sub_zero, abs_one] at this
        simpa using this.inv₀ one_ne_zero
      simpa using h1.mul h3

theorem continuousAt_2d (p : Polar n) (h2 : p.lr2d = true) (hr : ∀ K, 0 ≤ polarizability p K) (z : Fin n → Fin 3 → Fin 3 → ℝ)
    (qu : Option (Fin n → Fin 3 → Fin 3 → Fin 3 → ℝ)) (i j : Fin n × Fin 3) (g : Fin 3 → ℝ) (hg : 0 < norm3 g) (hpole : NoPole p g) :
    ContinuousAt (fun K => gTerm p z qu K i j + gTermPerp p z qu K i j) g := by
  have hn := continuous_norm3.continuousAt (x := g)
  have h1 := (continuous_keK p).continuousAt (x := g)
  have hE := (continuous_expFactor p i.1).continuousAt (x := g)
  have hE' := (continuous_expFactor p j.1).continuousAt (x := g)
  have hD := (continuous_dotFactor p z qu i.1 i.2).continuousAt (x := g)
  have hD' := (continuous_dotFactor p z qu j.1 j.2).continuousAt (x := g)
  have hP := (continuous_dotPerp p z qu i.1 i.2).continuousAt (x := g)
  have hP' := (continuous_dotPerp p z qu j.1 j.2).continuousAt (x := g)
  have hkr := (continuous_krK p).continuousAt (x := g)
  have hk0 : 0 ≤ krK p g := by
    rw [krK_eq]
    exact hr g
  have hf : ContinuousAt (factor p) g := by
    have e : factor p = fun K => match p.L with
        | some l => prefactor p * tanhFactor p l K / norm3 K / (1 + tanhFactor p l K / norm3 K * krK p K)
        | none => prefactor p * Real.exp (-keK p K / scale p) / (norm3 K + krK p K) := by
      funext K
      unfold factor
      rw [h2, sqrt_keK p h2]
      cases p.L <;> rfl
    rw [e]
    cases p.L with
    | none =>
      dsimp only
      refine ContinuousAt.div (by fun_prop) (hn.add hkr) (by positivity)
    | some l =>
      dsimp only
      have ht := (continuous_tanhFactor p l).continuousAt (x := g)
      have t0 := (tanhFactor_mem p l g).1
      refine ContinuousAt.div (ContinuousAt.div (continuousAt_const.mul ht) hn hg.ne') ?_ (by positivity)
      exact continuousAt_const.add ((ContinuousAt.div ht hn hg.ne').mul hkr)
  refine ContinuousAt.add ?_ ?_
  · exact ((Complex.continuous_ofReal.continuousAt.comp hf).mul (hD.mul hE).star).mul (hD'.mul hE')
  · unfold gTermPerp
    rw [h2]
    unfold NoPole at hpole
    generalize p.L = L at *
    generalize p.perp = pp at *
    cases L with
    | none => exact continuousAt_const
    | some l =>
      cases pp with
      | false => exact continuousAt_const
      | true =>
        dsimp only
        have hq := hpole l rfl rfl
        have ht := (continuous_tanhFactor p l).continuousAt (x := g)
        have hfp : ContinuousAt (factorPerp p l) g := by
          have e : factorPerp p l = fun K => -prefactor p * tanhFactor p l K / norm3 K / (1 - tanhFactor p l K * norm3 K * rEff p 2 2) := by
            funext K
            unfold factorPerp
            rw [sqrt_keK p h2]
          rw [e]
          refine ContinuousAt.div (ContinuousAt.div (continuousAt_const.mul ht) hn hg.ne') ?_ ?_
          · exact continuousAt_const.sub ((ht.mul hn).mul continuousAt_const)
          · intro h
            refine hq ?_
            have hs : Real.sqrt (∑ x, g x ^ 2) = norm3 g := rfl
            rw [hs, ← sqrt_keK p h2, ← tanhFactor_eq, sqrt_keK p h2]
            have hre : rEff p 2 2 = (p.eps 2 2 - 1) / p.b 2 2 / 2 := by
              unfold rEff
              rw [if_pos rfl]
              ring
            rw [← hre]
            linarith
        exact ((Complex.continuous_ofReal.continuousAt.comp hfp).mul (hP.mul hE).star).mul (hP'.mul hE')

/-- **C173**: in two dimensions, longitudinal and transverse optical modes are not split at the center of the Brillouin zone: dynamical
matrices are continuous there, also if the tolerance is zero. -/
theorem C173_plane (p : Polar n) (hp : Dual p) (h2 : p.lr2d = true) (hr : ∀ K, 0 ≤ polarizability p K) (Gmax : ℝ) (G2d : Bool)
    (h0 : 0 < scale p * Gmax) {η : ℝ} (hη : 0 ≤ η) (hg : ∀ g ∈ gList p Gmax G2d, g ≠ 0 → η < ∑ x, g x ^ 2)
    (hpole : ∀ g ∈ gList p Gmax G2d, g ≠ 0 → NoPole p g) (l : List (V3 × (Fin n × Fin 3 → Fin n × Fin 3 → ℂ)))
    (i j : Fin n × Fin 3) {δ : ℝ} (hδ : 0 < δ) :
    ∃ ρ, 0 < ρ ∧ ∀ tol, 0 ≤ tol → tol ≤ η → ∀ q : Fin 3 → ℝ, (∀ x, |q x| < ρ) →
      ‖DTol p tol Gmax G2d l q i j - DTol p tol Gmax G2d l 0 i j‖ < δ := by
  have hk : ∀ K, keK p K = ∑ x, K x ^ 2 := by
    intro K
    rw [keK, h2, if_pos rfl]
  obtain ⟨ρ, hρ, h⟩ := splitting_of p hp Gmax G2d h0 (η := η) (fun g h1 h2 => by rw [hk]; exact hg g h1 h2) l i j
    (fun g h1 h3 => continuousAt_2d p h2 hr _ _ i j g (Real.sqrt_pos.2 (lt_of_le_of_lt hη (hg g h1 h3))) (hpole g h1 h3))
    (fun _ => 0) (by simpa using (limit_term p h2 hr (zMass p) (qMass p) i j).add (limit_perp p h2 (zMass p) (qMass p) i j)) hδ
  refine ⟨ρ, hρ, fun tol h1 h3 q hq => ?_⟩
  obtain ⟨ha, hb⟩ := h tol h1 h3 q hq
  rcases lt_or_ge tol (keK p (wave p q)) with ht | ht
  · simpa using ha ht
  · exact hb ht

end Verif.Phon.Splitting
