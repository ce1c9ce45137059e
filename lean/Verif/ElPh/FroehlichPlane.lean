import Verif.ElPh.Froehlich

/-!
# Property C175: two dimensions, directions, and examples
-/

namespace Verif.ElPh.Froehlich

open Verif.Phon Verif.Phon.Splitting Filter Topology
open Verif.Phon.Super (Dual)

variable {n : Nat}

theorem polarizability_bound (p : Polar n) : ∃ R : ℝ, 0 ≤ R ∧ ∀ K, |krK p K| ≤ R * norm3 K ^ 2 := by
  let v : Fin 3 → Fin 3 → ℝ := ![![(p.eps 0 0 - 1) / p.b 2 2 / 2, (p.eps 0 1 + p.eps 1 0) / p.b 2 2 / 2, 0],
    ![0, (p.eps 1 1 - 1) / p.b 2 2 / 2, 0], ![0, 0, 0]]
  refine ⟨∑ x, ∑ y, |v x y|, Finset.sum_nonneg fun _ _ => Finset.sum_nonneg fun _ _ => abs_nonneg _, fun K => ?_⟩
  have h : krK p K = ∑ x, ∑ y, K x * v x y * K y := by
    rw [krK_eq]
    simp only [polarizability, v, Fin.sum_univ_three, Matrix.cons_val]
    ring
  rw [h]
  exact quad_bound K v

theorem factor_limit (p : Polar n) (h2 : p.lr2d = true) :
    ∃ φ : (Fin 3 → ℝ) → ℝ, Tendsto φ (𝓝 0) (𝓝 (coulomb2d p)) ∧ ∀ K, norm3 K ≠ 0 → factor p K = φ K / norm3 K := by
  obtain ⟨R, hR, hkr⟩ := polarizability_bound p
  have hu : Tendsto (fun K => krK p K / norm3 K) (𝓝 0) (𝓝 0) := by
    refine squeeze_zero_norm (a := fun K => R * norm3 K) (fun K => ?_) ?_
    · rw [Real.norm_eq_abs, abs_div, abs_of_nonneg (Splitting.norm3_nonneg K)]
      rcases eq_or_ne (norm3 K) 0 with h | h
      · rw [h, div_zero, mul_zero]
      · have h0 : 0 < norm3 K := lt_of_le_of_ne (Splitting.norm3_nonneg K) h.symm
        rw [div_le_iff₀ h0]
        refine (hkr K).trans (le_of_eq ?_)
        ring
    · have hc : Continuous fun K => R * norm3 K := continuous_const.mul continuous_norm3
      have := hc.tendsto 0
      rwa [norm3_zero, mul_zero] at this
  rw [← prefactor_2d p h2]
  cases hL : p.L with
  | none =>
    refine ⟨fun K => prefactor p * Real.exp (-keK p K / scale p) / (1 + krK p K / norm3 K), ?_, fun K hK => ?_⟩
    · have he : Tendsto (fun K => Real.exp (-keK p K / scale p)) (𝓝 0) (𝓝 1) := by
        have := continuous_keK p
        have hc : Continuous fun K => Real.exp (-keK p K / scale p) := by fun_prop
        have := hc.tendsto 0
        simpa [keK_zero] using this
      have := (he.const_mul (prefactor p)).div (hu.const_add 1) (by norm_num)
      rw [mul_one, add_zero, div_one] at this
      exact this
    · unfold factor
      rw [h2, hL]
      dsimp only
      rw [sqrt_keK p h2, div_div]
      congr 1
      field_simp
      try ring
  | some l =>
    refine ⟨fun K => prefactor p * tanhFactor p l K / (1 + tanhFactor p l K * (krK p K / norm3 K)), ?_, fun K hK => ?_⟩
    · have he : Tendsto (tanhFactor p l) (𝓝 0) (𝓝 1) := by
        have := (continuous_tanhFactor p l).tendsto 0
        rw [tanhFactor_eq, keK_zero, Real.sqrt_zero, zero_mul, Real.exp_zero] at this
        norm_num at this
        exact this
      have := (he.const_mul (prefactor p)).div ((he.mul hu).const_add 1) (by norm_num)
      rw [mul_one, mul_zero, add_zero, div_one] at this
      exact this
    · unfold factor
      rw [h2, hL]
      dsimp only
      rw [sqrt_keK p h2, div_right_comm, div_mul_eq_mul_div, mul_div_assoc (tanhFactor p l K)]

theorem dot_2d (p : Polar n) (i : Fin n × Fin 3) : ∃ A B : ℝ, 0 ≤ A ∧ 0 ≤ B ∧ ∀ K, ∃ c : ℝ,
    dotFactor p (zMass p) (qMass p) K i.1 i.2 = Complex.I * (dipole p K i : ℂ) + (c : ℂ) ∧ |dipole p K i| ≤ A * norm3 K ∧ |c| ≤ B * norm3 K ^ 2 := by
  obtain ⟨A, B, hA, hB, h⟩ := dot_bound p (zMass p) (qMass p) i.1 i.2
  refine ⟨A, B, hA, hB, fun K => ?_⟩
  obtain ⟨c, h1, h2, h3⟩ := h K
  have e : ∑ e, K e * zMass p i.1 e i.2 = dipole p K i := by
    unfold dipole
    rw [Finset.sum_div]
    exact Finset.sum_congr rfl fun x _ => by rw [zMass_eq]; ring
  rw [e] at h1 h2
  exact ⟨c, h1, h2, h3⟩

theorem limit_2d (p : Polar n) (h2 : p.lr2d = true) (i : Fin n × Fin 3) :
    Tendsto (fun K => vTerm p (zMass p) (qMass p) K i - froehlich2d p K i) (𝓝 0) (𝓝 0) := by
  obtain ⟨A, B, hA, hB, hd⟩ := dot_2d p i
  obtain ⟨φ, hφ, hf⟩ := factor_limit p h2
  refine squeeze_zero_norm (a := fun K => A * ‖(φ K : ℂ) * expFactor p K i.1 - (coulomb2d p : ℂ)‖ + |φ K| * (B * norm3 K)) (fun K => ?_) ?_
  · obtain ⟨c, e, h1, h3⟩ := hd K
    have hs := Splitting.norm3_nonneg K
    rcases eq_or_ne (norm3 K) 0 with h | h
    · rw [h, mul_zero] at h1
      rw [h] at h3
      have h1' : dipole p K i = 0 := abs_eq_zero.1 (le_antisymm h1 (abs_nonneg _))
      have h3' : c = 0 := abs_eq_zero.1 (le_antisymm (h3.trans (by simp)) (abs_nonneg _))
      have : vTerm p (zMass p) (qMass p) K i - froehlich2d p K i = 0 := by
        unfold vTerm froehlich2d
        rw [e, h1', h3']
        simp
      rw [this, norm_zero]
      positivity
    · have h0 : 0 < norm3 K := lt_of_le_of_ne hs h.symm
      have e1 : vTerm p (zMass p) (qMass p) K i - froehlich2d p K i = ((dipole p K i / norm3 K : ℝ) : ℂ) * (Complex.I *
          ((φ K : ℂ) * expFactor p K i.1 - (coulomb2d p : ℂ))) + ((φ K * (c / norm3 K) : ℝ) : ℂ) * expFactor p K i.1 := by
        unfold vTerm froehlich2d
        rw [e, hf K h]
        show _ - Complex.I * ((coulomb2d p * dipole p K i / norm3 K : ℝ) : ℂ) = _
        push_cast
        ring
      rw [e1]
      refine (norm_add_le _ _).trans (add_le_add ?_ ?_)
      · rw [norm_mul, norm_mul, Complex.norm_I, one_mul, Complex.norm_real, Real.norm_eq_abs]
        refine mul_le_mul_of_nonneg_right ?_ (norm_nonneg _)
        rw [abs_div, abs_of_pos h0, div_le_iff₀ h0]
        exact h1
      · rw [norm_mul, norm_expFactor, mul_one, Complex.norm_real, Real.norm_eq_abs, abs_mul]
        refine mul_le_mul_of_nonneg_left ?_ (abs_nonneg _)
        rw [abs_div, abs_of_pos h0, div_le_iff₀ h0]
        refine h3.trans (le_of_eq ?_)
        ring
  · have hE : Tendsto (fun K => expFactor p K i.1) (𝓝 0) (𝓝 1) := by
      have := (continuous_expFactor p i.1).tendsto 0
      simpa [expFactor] using this
    have hφc : Tendsto (fun K => (φ K : ℂ)) (𝓝 0) (𝓝 (coulomb2d p : ℂ)) := (Complex.continuous_ofReal.tendsto _).comp hφ
    have t1 := ((((hφc.mul hE).sub_const (coulomb2d p : ℂ))).norm).const_mul A
    have hn : Tendsto (fun K => norm3 K) (𝓝 0) (𝓝 0) := by
      have := continuous_norm3.tendsto 0
      rwa [norm3_zero] at this
    have t2 := hφ.abs.mul (hn.const_mul B)
    have := t1.add t2
    simpa using this

theorem continuousAt_2d (p : Polar n) (h2 : p.lr2d = true) (hr : ∀ K, 0 ≤ polarizability p K) (z : Fin n → Fin 3 → Fin 3 → ℝ)
    (qu : Option (Fin n → Fin 3 → Fin 3 → Fin 3 → ℝ)) (i : Fin n × Fin 3) (g : Fin 3 → ℝ) (hg : 0 < norm3 g) :
    ContinuousAt (fun K => vTerm p z qu K i) g := by
  have hn := continuous_norm3.continuousAt (x := g)
  have h1 := (continuous_keK p).continuousAt (x := g)
  have hE := (continuous_expFactor p i.1).continuousAt (x := g)
  have hD := (continuous_dotFactor p z qu i.1 i.2).continuousAt (x := g)
  have hkr := (continuous_krK p).continuousAt (x := g)
  have hk0 : 0 ≤ krK p g := by
    rw [krK_eq]
    exact hr g
  have hf : ContinuousAt (factor p) g := by
    have e : factor p = fun K => match p.L with
        | some l => prefactor p * tanhFactor p l K / norm3 K / (1 + tanhFactor p l K / norm3 K * krK p K)
        | none => prefactor p * Real.exp (-keK p K / scale p) / (norm3 K + krK p K) := by
      funext K
      unfold factor
      rw [h2, sqrt_keK p h2]
      cases p.L <;> rfl
    rw [e]
    cases p.L with
    | none =>
      dsimp only
      refine ContinuousAt.div (by fun_prop) (hn.add hkr) (by positivity)
    | some l =>
      dsimp only
      have ht := (continuous_tanhFactor p l).continuousAt (x := g)
      have t0 := (tanhFactor_mem p l g).1
      refine ContinuousAt.div (ContinuousAt.div (continuousAt_const.mul ht) hn hg.ne') ?_ (by positivity)
      exact continuousAt_const.add ((ContinuousAt.div ht hn hg.ne').mul hkr)
  exact (Complex.continuous_ofReal.continuousAt.comp hf).mul (hD.mul hE)

/-- **C175**: in two dimensions, for small wave vectors, the long-range coupling is that to dipoles without any screening, which depends on
the direction but not on the length of the wave vector; below the tolerance it is absent. -/
theorem C175_plane (p : Polar n) (hp : Dual p) (h2 : p.lr2d = true) (hr : ∀ K, 0 ≤ polarizability p K) (Gmax : ℝ) (G2d : Bool)
    (h0 : 0 < scale p * Gmax) {η : ℝ} (hη : 0 ≤ η) (hg : ∀ g ∈ gList p Gmax G2d, g ≠ 0 → η < ∑ x, g x ^ 2)
    (i : Fin n × Fin 3) {δ : ℝ} (hδ : 0 < δ) :
    ∃ ρ, 0 < ρ ∧ ∀ tol, 0 ≤ tol → tol ≤ η → ∀ q : Fin 3 → ℝ, (∀ x, |q x| < ρ) →
      (tol < ∑ x, wave p q x ^ 2 → ‖gTol p tol (gList p Gmax G2d) (zMass p) (qMass p) q i -
        gTol p tol (gList p Gmax G2d) (zMass p) (qMass p) 0 i - froehlich2d p (wave p q) i‖ < δ) ∧
      (∑ x, wave p q x ^ 2 ≤ tol → ‖gTol p tol (gList p Gmax G2d) (zMass p) (qMass p) q i -
        gTol p tol (gList p Gmax G2d) (zMass p) (qMass p) 0 i‖ < δ) := by
  have hk : ∀ K, keK p K = ∑ x, K x ^ 2 := by
    intro K
    rw [keK, h2]
    rfl
  have := froehlich_of p hp Gmax G2d h0 (η := η) (fun g h1 h2 => by rw [hk]; exact hg g h1 h2) i
    (fun g h1 h3 => continuousAt_2d p h2 hr _ _ i g (Real.sqrt_pos.2 (lt_of_le_of_lt hη (hg g h1 h3))))
    (fun K => froehlich2d p K i) (limit_2d p h2 i) hδ
  simpa only [hk] using this

/-! ### Directions -/

theorem dipole_smul (p : Polar n) (t : ℝ) (K : Fin 3 → ℝ) (i : Fin n × Fin 3) : dipole p (t • K) i = t * dipole p K i := by
  unfold dipole
  rw [← mul_div_assoc, Finset.mul_sum]
  congr 1
  exact Finset.sum_congr rfl fun x _ => by rw [Pi.smul_apply, smul_eq_mul, mul_assoc]

theorem quadrupole_smul (p : Polar n) (t : ℝ) (K : Fin 3 → ℝ) (i : Fin n × Fin 3) : quadrupole p (t • K) i = t ^ 2 * quadrupole p K i := by
  unfold quadrupole
  rw [← mul_div_assoc]
  congr 1
  rw [mul_left_comm]
  congr 1
  simp only [Finset.mul_sum, Pi.smul_apply, smul_eq_mul]
  exact Finset.sum_congr rfl fun x _ => Finset.sum_congr rfl fun y _ => by ring

theorem froehlich_smul (p : Polar n) {t : ℝ} (ht : t ≠ 0) (K : Fin 3 → ℝ) (i : Fin n × Fin 3) :
    froehlich p (t • K) i = ((coulomb3d p / (∑ x, ∑ y, K x * p.eps x y * K y) : ℝ) : ℂ) *
      (Complex.I * ((dipole p K i / t : ℝ) : ℂ) + ((quadrupole p K i + dipole p K i * ∑ x, K x * p.r i.1 x : ℝ) : ℂ)) := by
  unfold froehlich
  have h2 : ∑ x, ∑ y, (t • K) x * p.eps x y * (t • K) y = t ^ 2 * ∑ x, ∑ y, K x * p.eps x y * K y := by
    simp only [Finset.mul_sum, Pi.smul_apply, smul_eq_mul]
    exact Finset.sum_congr rfl fun x _ => Finset.sum_congr rfl fun y _ => by ring
  have h3 : ∑ x, (t • K) x * p.r i.1 x = t * ∑ x, K x * p.r i.1 x := by
    simp only [Finset.mul_sum, Pi.smul_apply, smul_eq_mul, mul_assoc]
  rw [h2, h3, dipole_smul, quadrupole_smul]
  generalize ∑ x, ∑ y, K x * p.eps x y * K y = k
  generalize ∑ x, K x * p.r i.1 x = r
  have htc : (t : ℂ) ≠ 0 := Complex.ofReal_ne_zero.2 ht
  push_cast
  rw [div_mul_eq_mul_div, div_mul_eq_mul_div, mul_comm ((t : ℂ) ^ 2) (k : ℂ), ← div_div, div_right_comm]
  congr 1
  field_simp

theorem froehlich2d_smul (p : Polar n) {t : ℝ} (ht : 0 < t) (K : Fin 3 → ℝ) (i : Fin n × Fin 3) :
    froehlich2d p (t • K) i = froehlich2d p K i := by
  unfold froehlich2d
  have h : Real.sqrt (∑ x, (t • K) x ^ 2) = t * Real.sqrt (∑ x, K x ^ 2) := by
    rw [show ∑ x, (t • K) x ^ 2 = t ^ 2 * ∑ x, K x ^ 2 by simp only [Finset.mul_sum, Pi.smul_apply, smul_eq_mul, mul_pow],
      Real.sqrt_mul (sq_nonneg t), Real.sqrt_sq ht.le]
  rw [h, dipole_smul, mul_left_comm, mul_div_mul_left _ _ ht.ne']

theorem small_line {d : Fin 3 → ℝ} {ρ : ℝ} (hρ : 0 < ρ) : ∀ᶠ t : ℝ in 𝓝 0, ∀ x, |(t • d) x| < ρ := by
  rw [Filter.eventually_all]
  intro x
  have : Tendsto (fun t : ℝ => |(t • d) x|) (𝓝 0) (𝓝 0) := by
    have hcont : Continuous fun t : ℝ => |(t • d) x| := by
      simp only [Pi.smul_apply, smul_eq_mul]
      fun_prop
    simpa using hcont.tendsto 0
  exact this.eventually_lt_const hρ

theorem wave_pos (p : Polar n) {d : Fin 3 → ℝ} (hd : wave p d ≠ 0) {t : ℝ} (ht : t ≠ 0) : 0 < ∑ x, (t • wave p d) x ^ 2 := by
  obtain ⟨x, hx⟩ := Function.ne_iff.1 (smul_ne_zero ht hd : t • wave p d ≠ 0)
  exact Finset.sum_pos' (fun _ _ => sq_nonneg _) ⟨x, Finset.mem_univ x, sq_pos_of_ne_zero hx⟩

/-- **C175**: in three dimensions, if the tolerance is zero, the coupling to dipoles diverges with the inverse length of the wave vector. -/
theorem C175_diverges (p : Polar n) (hp : Dual p) (h3 : p.lr2d = false) {c : ℝ} (hc : 0 < c)
    (he : ∀ K : Fin 3 → ℝ, c * ∑ x, K x ^ 2 ≤ ∑ x, ∑ y, K x * p.eps x y * K y) (Gmax : ℝ) (G2d : Bool) (h0 : 0 < scale p * Gmax)
    (hg : ∀ g ∈ gList p Gmax G2d, g ≠ 0 → 0 < ∑ x, ∑ y, g x * p.eps x y * g y) (i : Fin n × Fin 3) (d : Fin 3 → ℝ) (hd : wave p d ≠ 0) :
    Tendsto (fun t : ℝ => (t : ℂ) * gTol p 0 (gList p Gmax G2d) (zMass p) (qMass p) (t • d) i) (𝓝[≠] 0)
      (𝓝 (((coulomb3d p / (∑ x, ∑ y, wave p d x * p.eps x y * wave p d y) : ℝ) : ℂ) * (Complex.I * (dipole p (wave p d) i : ℂ)))) := by
  set g := gTol p 0 (gList p Gmax G2d) (zMass p) (qMass p) with hgd
  set C := ((coulomb3d p / (∑ x, ∑ y, wave p d x * p.eps x y * wave p d y) : ℝ) : ℂ) with hC
  set b := ((quadrupole p (wave p d) i + dipole p (wave p d) i * ∑ x, wave p d x * p.r i.1 x : ℝ) : ℂ) with hb
  have hdiff : Tendsto (fun t : ℝ => g (t • d) i - g 0 i - froehlich p (t • wave p d) i) (𝓝[≠] 0) (𝓝 0) := by
    rw [Metric.tendsto_nhds]
    intro δ hδ
    obtain ⟨ρ, hρ, h⟩ := C175_bulk p hp h3 hc he Gmax G2d h0 le_rfl hg i hδ
    filter_upwards [(small_line (d := d) hρ).filter_mono nhdsWithin_le_nhds, self_mem_nhdsWithin] with t ht h0
    have := (h 0 le_rfl le_rfl (t • d) ht).1 (by
      rw [wave_smul]
      exact lt_of_lt_of_le (mul_pos hc (wave_pos p hd h0)) (he _))
    rw [wave_smul] at this
    rwa [dist_zero_right]
  have hid : Tendsto (fun t : ℝ => (t : ℂ)) (𝓝[≠] 0) (𝓝 0) := by
    have := (Complex.continuous_ofReal.tendsto (0 : ℝ)).mono_left (nhdsWithin_le_nhds (s := {0}ᶜ))
    simpa using this
  have h1 := hid.mul hdiff
  have h2 := hid.mul_const (g 0 i + C * b)
  have h4 := (h1.add h2).add_const (C * (Complex.I * (dipole p (wave p d) i : ℂ)))
  rw [mul_zero, zero_mul, add_zero, zero_add] at h4
  refine h4.congr' ?_
  filter_upwards [self_mem_nhdsWithin] with t ht
  have ht0 : t ≠ 0 := ht
  have htc : (t : ℂ) ≠ 0 := Complex.ofReal_ne_zero.2 ht0
  have e : (t : ℂ) * froehlich p (t • wave p d) i = C * (Complex.I * (dipole p (wave p d) i : ℂ)) + (t : ℂ) * (C * b) := by
    rw [froehlich_smul p ht0, ← hC, ← hb]
    push_cast
    field_simp
  linear_combination -e

/-- **C175**: in two dimensions, if the tolerance is zero, the coupling jumps when passing the center of the Brillouin zone. -/
theorem C175_jump (p : Polar n) (hp : Dual p) (h2 : p.lr2d = true) (hr : ∀ K, 0 ≤ polarizability p K) (Gmax : ℝ) (G2d : Bool)
    (h0 : 0 < scale p * Gmax) (hg : ∀ g ∈ gList p Gmax G2d, g ≠ 0 → 0 < ∑ x, g x ^ 2)
    (i : Fin n × Fin 3) (d : Fin 3 → ℝ) (hd : wave p d ≠ 0) :
    Tendsto (fun t : ℝ => gTol p 0 (gList p Gmax G2d) (zMass p) (qMass p) (t • d) i) (𝓝[>] 0)
      (𝓝 (gTol p 0 (gList p Gmax G2d) (zMass p) (qMass p) 0 i + froehlich2d p (wave p d) i)) := by
  rw [Metric.tendsto_nhds]
  intro δ hδ
  obtain ⟨ρ, hρ, h⟩ := C175_plane p hp h2 hr Gmax G2d h0 le_rfl hg i hδ
  filter_upwards [(small_line (d := d) hρ).filter_mono nhdsWithin_le_nhds, self_mem_nhdsWithin] with t ht h0
  have ht0 : 0 < t := h0
  have := (h 0 le_rfl le_rfl (t • d) ht).1 (by
    rw [wave_smul]
    exact wave_pos p hd ht0.ne')
  rw [wave_smul, froehlich2d_smul p ht0, sub_sub] at this
  rwa [dist_eq_norm]

/-- **C175**: with the default tolerance, the long-range coupling is continuous at the center of the Brillouin zone. -/
theorem C175_tolerance (p : Polar n) (hp : Dual p) (h3 : p.lr2d = false) {c : ℝ} (hc : 0 < c)
    (he : ∀ K : Fin 3 → ℝ, c * ∑ x, K x ^ 2 ≤ ∑ x, ∑ y, K x * p.eps x y * K y) (Gmax : ℝ) (G2d : Bool) (h0 : 0 < scale p * Gmax)
    (hg : ∀ g ∈ gList p Gmax G2d, g ≠ 0 → 1e-10 < ∑ x, ∑ y, g x * p.eps x y * g y) (i : Fin n × Fin 3) :
    ContinuousAt (fun q => gLr p (gList p Gmax G2d) (zMass p) (qMass p) q i) 0 := by
  rw [← gTol_default, ContinuousAt, Metric.tendsto_nhds]
  intro δ hδ
  obtain ⟨ρ, hρ, h⟩ := C175_bulk p hp h3 hc he Gmax G2d h0 (η := 1e-10) (by norm_num) hg i hδ
  have hk : Tendsto (fun q => ∑ x, ∑ y, wave p q x * p.eps x y * wave p q y) (𝓝 0) (𝓝 0) := by
    have h1 := continuous_wave p
    have h2 : Continuous fun q => ∑ x, ∑ y, wave p q x * p.eps x y * wave p q y := by
      have h3 : ∀ x, Continuous fun q => wave p q x := fun x => (continuous_apply x).comp h1
      fun_prop
    have := h2.tendsto 0
    rw [wave_zero] at this
    simpa using this
  have hq : ∀ᶠ q : Fin 3 → ℝ in 𝓝 0, ∀ x, |q x| < ρ := by
    rw [Filter.eventually_all]
    intro x
    have hcont : Continuous fun q : Fin 3 → ℝ => |q x| := by fun_prop
    have := hcont.tendsto 0
    simp only [Pi.zero_apply, abs_zero] at this
    exact this.eventually_lt_const hρ
  filter_upwards [hq, hk.eventually_le_const (by norm_num : (0 : ℝ) < 1e-10)] with q hq1 hq2
  rw [dist_eq_norm]
  exact (h 1e-10 (by norm_num) le_rfl q hq1).2 hq2

/-! ### Examples -/

example (i : Fin 2 × Fin 3) :=
  C175_bulk (ionic false) (ionic_dual _) rfl (c := 3) (by norm_num) (fun K => (ionic_eps false K).ge) 10 false (ionic_scale _)
    (η := 1) zero_le_one (ionic_gap3 _ _ le_rfl) i (δ := 1 / 1000) (by norm_num)

example (i : Fin 2 × Fin 3) :=
  C175_plane (ionic true) (ionic_dual _) rfl (ionic_pol _) 10 false (ionic_scale _) (η := 1) zero_le_one (ionic_gap _ _) i
    (δ := 1 / 1000) (by norm_num)

theorem wave_ne : wave (ionic false) (Pi.single 0 1) ≠ 0 := by
  rw [ionic_wave]
  intro h
  have := congrFun h 0
  simp at this

theorem wave_ne2 : wave (ionic true) (Pi.single 0 1) ≠ 0 := wave_ne

example (i : Fin 2 × Fin 3) :=
  C175_diverges (ionic false) (ionic_dual _) rfl (c := 3) (by norm_num) (fun K => (ionic_eps false K).ge) 10 false (ionic_scale _)
    (ionic_gap3 _ _ zero_le_one) i (Pi.single 0 1) wave_ne

example (i : Fin 2 × Fin 3) :=
  C175_jump (ionic true) (ionic_dual _) rfl (ionic_pol _) 10 false (ionic_scale _) (fun g h h0 => by linarith [ionic_gap _ _ g h h0]) i
    (Pi.single 0 1) wave_ne2

example (i : Fin 2 × Fin 3) :=
  C175_tolerance (ionic false) (ionic_dual _) rfl (c := 3) (by norm_num) (fun K => (ionic_eps false K).ge) 10 false (ionic_scale _)
    (ionic_gap3 _ _ (by norm_num)) i

/-- Strength of the divergence for the first atom along `x`. -/
theorem ionic_strength : ((coulomb3d (ionic false) / (∑ x, ∑ y, wave (ionic false) (Pi.single 0 1) x * (ionic false).eps x y *
    wave (ionic false) (Pi.single 0 1) y) : ℝ) : ℂ) * (Complex.I * (dipole (ionic false) (wave (ionic false) (Pi.single 0 1)) (0, 0) : ℂ)) =
    Complex.I * ((2 * Real.pi / 3 : ℝ) : ℂ) := by
  have hr : rootMass (ionic false) 0 = 1 := by simp [rootMass, ionic]
  have hc : coulomb3d (ionic false) = Real.pi := by
    simp [coulomb3d, ionic, fin3]
    norm_num
  have hd : dipole (ionic false) (wave (ionic false) (Pi.single 0 1)) (0, 0) = 1 / 2 := by
    rw [ionic_wave, dipole_smul]
    unfold dipole
    rw [hr]
    simp [ionic, Fin.sum_univ_three, fin3]
  rw [hd, hc, ionic_eps, ionic_wave]
  have hs : ∑ x, (((1 : ℝ) / 2) • (Pi.single 0 1 : Fin 3 → ℝ)) x ^ 2 = 1 / 4 := by
    simp [Fin.sum_univ_three]
    norm_num
  rw [hs]
  push_cast
  ring

/-- **C175**: with the default tolerance, the long-range coupling does not diverge. -/
theorem C175_diverges_violated : ∃ (p : Polar 2) (i : Fin 2 × Fin 3) (d : Fin 3 → ℝ), Dual p ∧ p.lr2d = false ∧ wave p d ≠ 0 ∧
    Tendsto (fun t : ℝ => gLr p (gList p 10 false) (zMass p) (qMass p) (t • d) i) (𝓝[≠] 0) (𝓝 (gLr p (gList p 10 false) (zMass p) (qMass p) 0 i)) ∧
    ¬ Tendsto (fun t : ℝ => (t : ℂ) * gLr p (gList p 10 false) (zMass p) (qMass p) (t • d) i) (𝓝[≠] 0)
      (𝓝 (((coulomb3d p / (∑ x, ∑ y, wave p d x * p.eps x y * wave p d y) : ℝ) : ℂ) * (Complex.I * (dipole p (wave p d) i : ℂ)))) := by
  refine ⟨ionic false, (0, 0), Pi.single 0 1, ionic_dual _, rfl, wave_ne, ?_⟩
  have hc := C175_tolerance (ionic false) (ionic_dual _) rfl (c := 3) (by norm_num) (fun K => (ionic_eps false K).ge) 10 false (ionic_scale _)
    (ionic_gap3 _ _ (by norm_num)) (0, 0)
  have h1 : Tendsto (fun t : ℝ => gLr (ionic false) (gList (ionic false) 10 false) (zMass (ionic false)) (qMass (ionic false))
      (t • Pi.single 0 1) (0, 0)) (𝓝[≠] 0) (𝓝 (gLr (ionic false) (gList (ionic false) 10 false) (zMass (ionic false)) (qMass (ionic false)) 0 (0, 0))) := by
    have ht : Tendsto (fun t : ℝ => t • (Pi.single 0 1 : Fin 3 → ℝ)) (𝓝[≠] 0) (𝓝 0) := by
      have hcont : Continuous fun t : ℝ => t • (Pi.single 0 1 : Fin 3 → ℝ) := by fun_prop
      have := hcont.tendsto 0
      rw [zero_smul] at this
      exact this.mono_left nhdsWithin_le_nhds
    exact hc.tendsto.comp ht
  refine ⟨h1, fun h2 => ?_⟩
  have hid : Tendsto (fun t : ℝ => (t : ℂ)) (𝓝[≠] 0) (𝓝 0) := by
    have := (Complex.continuous_ofReal.tendsto (0 : ℝ)).mono_left (nhdsWithin_le_nhds (s := {0}ᶜ))
    simpa using this
  have h3 := hid.mul h1
  rw [zero_mul] at h3
  have := tendsto_nhds_unique h3 h2
  rw [ionic_strength] at this
  have h4 := congrArg Complex.im this
  simp at h4
  linarith [Real.pi_pos]

end Verif.ElPh.Froehlich
