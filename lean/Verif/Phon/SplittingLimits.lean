import Verif.Phon.Splitting

/-!
# Property C173: limits at the center of the Brillouin zone
-/

namespace Verif.Phon.Splitting

open Verif.Fourier Filter Topology
open Verif.Voronoi (V3)
open Verif.Phon.Super (Dual gVec_inj)

variable {n : Nat}

/-! ### Bounds -/

theorem norm3_nonneg (K : Fin 3 → ℝ) : 0 ≤ norm3 K := Real.sqrt_nonneg _

theorem norm3_sq (K : Fin 3 → ℝ) : norm3 K ^ 2 = ∑ x, K x ^ 2 := Real.sq_sqrt (Finset.sum_nonneg fun _ _ => sq_nonneg _)

theorem abs_le_norm3 (K : Fin 3 → ℝ) (x : Fin 3) : |K x| ≤ norm3 K := by
  refine Real.abs_le_sqrt ?_
  exact Finset.single_le_sum (f := fun x => K x ^ 2) (fun _ _ => sq_nonneg _) (Finset.mem_univ x)

theorem continuous_norm3 : Continuous norm3 := by
  unfold norm3
  fun_prop

theorem norm3_zero : norm3 0 = 0 := by
  simp [norm3]

theorem lin_bound (K v : Fin 3 → ℝ) : |∑ e, K e * v e| ≤ (∑ e, |v e|) * norm3 K := by
  refine (Finset.abs_sum_le_sum_abs _ _).trans ?_
  rw [Finset.sum_mul]
  refine Finset.sum_le_sum fun e _ => ?_
  rw [abs_mul, mul_comm]
  exact mul_le_mul_of_nonneg_left (abs_le_norm3 K e) (abs_nonneg _)

theorem quad_bound (K : Fin 3 → ℝ) (v : Fin 3 → Fin 3 → ℝ) : |∑ x, ∑ y, K x * v x y * K y| ≤ (∑ x, ∑ y, |v x y|) * norm3 K ^ 2 := by
  refine (Finset.abs_sum_le_sum_abs _ _).trans ?_
  rw [Finset.sum_mul]
  refine Finset.sum_le_sum fun x _ => ?_
  refine (Finset.abs_sum_le_sum_abs _ _).trans ?_
  rw [Finset.sum_mul]
  refine Finset.sum_le_sum fun y _ => ?_
  rw [abs_mul, abs_mul]
  calc |K x| * |v x y| * |K y| = |v x y| * (|K x| * |K y|) := by ring
    _ ≤ |v x y| * (norm3 K * norm3 K) := mul_le_mul_of_nonneg_left
      (mul_le_mul (abs_le_norm3 K x) (abs_le_norm3 K y) (abs_nonneg _) (norm3_nonneg K)) (abs_nonneg _)
    _ = |v x y| * norm3 K ^ 2 := by ring

/-- Dipole and quadrupole parts. -/
theorem dot_bound (p : Polar n) (z : Fin n → Fin 3 → Fin 3 → ℝ) (qu : Option (Fin n → Fin 3 → Fin 3 → Fin 3 → ℝ)) (a : Fin n) (u : Fin 3) :
    ∃ A B : ℝ, 0 ≤ A ∧ 0 ≤ B ∧ ∀ K, ∃ c : ℝ, dotFactor p z qu K a u = Complex.I * ((∑ e, K e * z a e u : ℝ) : ℂ) + (c : ℂ) ∧
      |∑ e, K e * z a e u| ≤ A * norm3 K ∧ |c| ≤ B * norm3 K ^ 2 := by
  refine ⟨∑ e, |z a e u|, ?_⟩
  cases qu with
  | none =>
    refine ⟨0, Finset.sum_nonneg fun _ _ => abs_nonneg _, le_rfl, fun K => ⟨0, ?_, lin_bound K fun e => z a e u, by simp⟩⟩
    simp [dotFactor]
  | some Q =>
    refine ⟨0.5 * (∑ x, ∑ y, |Q a u x y|) + 0.5 * |Q a u 2 2|, Finset.sum_nonneg fun _ _ => abs_nonneg _, by positivity, fun K => ?_⟩
    have hq := quad_bound K (Q a u)
    by_cases h : (p.lr2d && p.L.isSome) = true
    · have h2 : p.lr2d = true := by
        rw [Bool.and_eq_true] at h
        exact h.1
      have hk : Real.sqrt (keK p K) ^ 2 = norm3 K ^ 2 := by
        unfold keK norm3
        rw [h2, if_pos rfl]
      refine ⟨0.5 * (∑ x, ∑ y, K x * Q a u x y * K y) - 0.5 * (norm3 K ^ 2 * Q a u 2 2), ?_, lin_bound K fun e => z a e u, ?_⟩
      · simp only [dotFactor]
        rw [if_pos h, hk]
        push_cast
        ring
      · refine (abs_sub _ _).trans ?_
        rw [abs_mul, abs_mul, abs_mul, abs_of_nonneg (sq_nonneg (norm3 K)), abs_of_pos (by norm_num : (0.5 : ℝ) > 0)]
        linarith
    · refine ⟨0.5 * (∑ x, ∑ y, K x * Q a u x y * K y), ?_, lin_bound K fun e => z a e u, ?_⟩
      · simp only [dotFactor]
        rw [if_neg h]
        simp
      · rw [abs_mul, abs_of_pos (by norm_num : (0.5 : ℝ) > 0)]
        have : 0 ≤ 0.5 * |Q a u 2 2| * norm3 K ^ 2 := by positivity
        linarith

theorem perp_bound (p : Polar n) (h2 : p.lr2d = true) (z : Fin n → Fin 3 → Fin 3 → ℝ) (qu : Option (Fin n → Fin 3 → Fin 3 → Fin 3 → ℝ))
    (a : Fin n) (u : Fin 3) : ∃ A B : ℝ, 0 ≤ A ∧ 0 ≤ B ∧ ∀ K, ‖dotPerp p z qu K a u‖ ≤ norm3 K * (A + B * norm3 K) := by
  have hk : ∀ K, Real.sqrt (keK p K) = norm3 K := by
    intro K
    unfold keK norm3
    rw [h2, if_pos rfl]
  have h1 : ∀ K : Fin 3 → ℝ, ‖Complex.I * ((norm3 K * z a 2 u : ℝ) : ℂ)‖ = norm3 K * |z a 2 u| := by
    intro K
    rw [norm_mul, Complex.norm_I, one_mul, Complex.norm_real, Real.norm_eq_abs, abs_mul, abs_of_nonneg (norm3_nonneg K)]
  cases qu with
  | none =>
    refine ⟨|z a 2 u|, 0, abs_nonneg _, le_rfl, fun K => ?_⟩
    simp only [dotPerp, hk, add_zero, zero_mul]
    exact (h1 K).le
  | some Q =>
    refine ⟨|z a 2 u|, ∑ y : Fin 2, |Q a u 2 (y.castLE (by omega))|, abs_nonneg _, Finset.sum_nonneg fun _ _ => abs_nonneg _, fun K => ?_⟩
    simp only [dotPerp, hk]
    refine (norm_add_le _ _).trans ?_
    rw [h1, mul_add]
    refine add_le_add le_rfl ?_
    rw [Complex.norm_real, Real.norm_eq_abs]
    refine (Finset.abs_sum_le_sum_abs _ _).trans ?_
    rw [Finset.sum_mul, Finset.mul_sum]
    refine Finset.sum_le_sum fun y _ => ?_
    rw [abs_mul, abs_mul, abs_of_nonneg (norm3_nonneg K), mul_assoc]
    exact mul_le_mul_of_nonneg_left (mul_le_mul_of_nonneg_left (abs_le_norm3 K _) (abs_nonneg _)) (norm3_nonneg K)

theorem norm_expFactor (p : Polar n) (K : Fin 3 → ℝ) (a : Fin n) : ‖expFactor p K a‖ = 1 := by
  unfold expFactor
  rw [show -Complex.I * ((∑ x, K x * p.r a x : ℝ) : ℂ) = ((-(∑ x, K x * p.r a x) : ℝ) : ℂ) * Complex.I by push_cast; ring]
  exact Complex.norm_exp_ofReal_mul_I _

theorem continuous_expFactor (p : Polar n) (a : Fin n) : Continuous fun K => expFactor p K a := by
  unfold expFactor
  fun_prop

theorem continuous_dotFactor (p : Polar n) (z : Fin n → Fin 3 → Fin 3 → ℝ) (qu : Option (Fin n → Fin 3 → Fin 3 → Fin 3 → ℝ)) (a : Fin n)
    (u : Fin 3) : Continuous fun K => dotFactor p z qu K a u := by
  have hk := continuous_keK p
  unfold dotFactor
  cases qu with
  | none => fun_prop
  | some Q =>
    dsimp only
    split <;> fun_prop

theorem continuous_dotPerp (p : Polar n) (z : Fin n → Fin 3 → Fin 3 → ℝ) (qu : Option (Fin n → Fin 3 → Fin 3 → Fin 3 → ℝ)) (a : Fin n)
    (u : Fin 3) : Continuous fun K => dotPerp p z qu K a u := by
  have hk := continuous_keK p
  unfold dotPerp
  cases qu with
  | none => fun_prop
  | some Q => fun_prop

theorem ratio {c t k x Y : ℝ} (hc : 0 < c) (hk : c * t ≤ k) (ht : 0 ≤ t) (hx : |x| ≤ Y * t) (hY : 0 ≤ Y) : |x / k| ≤ Y / c := by
  rcases ht.eq_or_lt with h | h
  · rw [← h, mul_zero] at hx
    have : x = 0 := abs_eq_zero.1 (le_antisymm hx (abs_nonneg _))
    rw [this, zero_div, abs_zero]
    positivity
  · have hk0 : 0 < k := lt_of_lt_of_le (mul_pos hc h) hk
    rw [abs_div, abs_of_pos hk0, div_le_div_iff₀ hk0 hc]
    nlinarith [mul_le_mul_of_nonneg_left hk hY, mul_le_mul_of_nonneg_right hx hc.le]

/-! ### Three dimensions -/

theorem limit_3d (p : Polar n) (h3 : p.lr2d = false) {c : ℝ} (hc : 0 < c)
    (he : ∀ K : Fin 3 → ℝ, c * ∑ x, K x ^ 2 ≤ ∑ x, ∑ y, K x * p.eps x y * K y) (z : Fin n → Fin 3 → Fin 3 → ℝ)
    (qu : Option (Fin n → Fin 3 → Fin 3 → Fin 3 → ℝ)) (i j : Fin n × Fin 3) :
    Tendsto (fun K => gTerm p z qu K i j + gTermPerp p z qu K i j -
      ((prefactor p * ((∑ e, K e * z i.1 e i.2) * (∑ e, K e * z j.1 e j.2) / keK p K) : ℝ) : ℂ)) (𝓝 0) (𝓝 0) := by
  obtain ⟨A, B, hA, hB, hi⟩ := dot_bound p z qu i.1 i.2
  obtain ⟨A', B', hA', hB', hj⟩ := dot_bound p z qu j.1 j.2
  have hk : ∀ K, keK p K = ∑ x, ∑ y, K x * p.eps x y * K y := by
    intro K
    rw [keK, h3]
    rfl
  let E : (Fin 3 → ℝ) → ℂ := fun K => (Real.exp (-keK p K / scale p) : ℂ) * star (expFactor p K i.1) * expFactor p K j.1
  have hEc : Continuous E := by
    have h1 := continuous_keK p
    have h2 := continuous_expFactor p i.1
    have h3 := continuous_expFactor p j.1
    show Continuous fun K => (Real.exp (-keK p K / scale p) : ℂ) * star (expFactor p K i.1) * expFactor p K j.1
    fun_prop
  have hE0 : E 0 = 1 := by
    show (Real.exp (-keK p 0 / scale p) : ℂ) * star (expFactor p 0 i.1) * expFactor p 0 j.1 = 1
    simp [keK_zero, expFactor]
  have hbound : ∀ K, ‖gTerm p z qu K i j + gTermPerp p z qu K i j -
      ((prefactor p * ((∑ e, K e * z i.1 e i.2) * (∑ e, K e * z j.1 e j.2) / keK p K) : ℝ) : ℂ)‖ ≤
      |prefactor p| * (A * A' / c * ‖E K - 1‖ + ((A * B' * norm3 K + B * A' * norm3 K + B * B' * norm3 K ^ 2) / c) * ‖E K‖) := by
    intro K
    obtain ⟨ci, ei, ai, bi⟩ := hi K
    obtain ⟨cj, ej, aj, bj⟩ := hj K
    have hkK : c * norm3 K ^ 2 ≤ keK p K := by
      rw [norm3_sq, hk]
      exact he K
    have hs := norm3_nonneg K
    generalize hs' : norm3 K = s at *
    generalize (∑ e, K e * z i.1 e i.2) = di at *
    generalize (∑ e, K e * z j.1 e j.2) = dj at *
    have e1 : gTerm p z qu K i j + gTermPerp p z qu K i j - ((prefactor p * (di * dj / keK p K) : ℝ) : ℂ) =
        (prefactor p : ℂ) * (((di * dj / keK p K : ℝ) : ℂ) * (E K - 1) +
          (-Complex.I * ((di * cj / keK p K : ℝ) : ℂ) + Complex.I * ((ci * dj / keK p K : ℝ) : ℂ) + ((ci * cj / keK p K : ℝ) : ℂ)) * E K) := by
      have hf : factor p K = prefactor p * Real.exp (-keK p K / scale p) / keK p K := by
        unfold factor
        rw [h3]
      have hp0 : gTermPerp p z qu K i j = 0 := by
        unfold gTermPerp
        rw [h3]
      rw [hp0, gTerm, hf, ei, ej]
      show _ = (prefactor p : ℂ) * (((di * dj / keK p K : ℝ) : ℂ) * ((Real.exp (-keK p K / scale p) : ℂ) * star (expFactor p K i.1) * expFactor p K j.1 - 1) +
          (-Complex.I * ((di * cj / keK p K : ℝ) : ℂ) + Complex.I * ((ci * dj / keK p K : ℝ) : ℂ) + ((ci * cj / keK p K : ℝ) : ℂ)) *
            ((Real.exp (-keK p K / scale p) : ℂ) * star (expFactor p K i.1) * expFactor p K j.1))
      generalize Real.exp (-keK p K / scale p) = ex
      have hstar : star (Complex.I * (di : ℂ) + (ci : ℂ)) = -Complex.I * di + ci := by
        simp [Complex.star_def]
      rw [star_mul', hstar]
      push_cast
      generalize star (expFactor p K i.1) = Ei
      generalize expFactor p K j.1 = Ej
      have hI := Complex.I_mul_I
      linear_combination (-(prefactor p : ℂ) * ex * di * dj * Ei * Ej / keK p K) * hI
    rw [e1, norm_mul, Complex.norm_real, Real.norm_eq_abs]
    refine mul_le_mul_of_nonneg_left ?_ (abs_nonneg _)
    refine (norm_add_le _ _).trans ?_
    rw [norm_mul, norm_mul]
    have ht : 0 ≤ s ^ 2 := sq_nonneg s
    have r1 : |di * dj / keK p K| ≤ A * A' / c := by
      refine ratio hc hkK ht ?_ (by positivity)
      rw [abs_mul]
      calc |di| * |dj| ≤ (A * s) * (A' * s) := mul_le_mul ai aj (abs_nonneg _) (by positivity)
        _ = A * A' * s ^ 2 := by ring
    have r2 : |di * cj / keK p K| ≤ A * B' * s / c := by
      refine ratio hc hkK ht ?_ (by positivity)
      rw [abs_mul]
      calc |di| * |cj| ≤ (A * s) * (B' * s ^ 2) := mul_le_mul ai bj (abs_nonneg _) (by positivity)
        _ = A * B' * s * s ^ 2 := by ring
    have r3 : |ci * dj / keK p K| ≤ B * A' * s / c := by
      refine ratio hc hkK ht ?_ (by positivity)
      rw [abs_mul]
      calc |ci| * |dj| ≤ (B * s ^ 2) * (A' * s) := mul_le_mul bi aj (abs_nonneg _) (by positivity)
        _ = B * A' * s * s ^ 2 := by ring
    have r4 : |ci * cj / keK p K| ≤ B * B' * s ^ 2 / c := by
      refine ratio hc hkK ht ?_ (by positivity)
      rw [abs_mul]
      calc |ci| * |cj| ≤ (B * s ^ 2) * (B' * s ^ 2) := mul_le_mul bi bj (abs_nonneg _) (by positivity)
        _ = B * B' * s ^ 2 * s ^ 2 := by ring
    refine add_le_add ?_ ?_
    · rw [Complex.norm_real, Real.norm_eq_abs]
      exact mul_le_mul_of_nonneg_right r1 (norm_nonneg _)
    · refine mul_le_mul_of_nonneg_right ?_ (norm_nonneg _)
      refine (norm_add₃_le).trans ?_
      simp only [norm_mul, norm_neg, Complex.norm_I, one_mul, Complex.norm_real, Real.norm_eq_abs]
      rw [add_div, add_div]
      linarith
  refine squeeze_zero_norm hbound ?_
  have hcont : Continuous fun K => |prefactor p| * (A * A' / c * ‖E K - 1‖ +
      ((A * B' * norm3 K + B * A' * norm3 K + B * B' * norm3 K ^ 2) / c) * ‖E K‖) := by
    have := continuous_norm3
    fun_prop
  have := hcont.tendsto 0
  rw [hE0, norm3_zero] at this
  simpa using this

theorem continuousAt_3d (p : Polar n) (h3 : p.lr2d = false) (z : Fin n → Fin 3 → Fin 3 → ℝ)
    (qu : Option (Fin n → Fin 3 → Fin 3 → Fin 3 → ℝ)) (i j : Fin n × Fin 3) (g : Fin 3 → ℝ) (hg : 0 < keK p g) :
    ContinuousAt (fun K => gTerm p z qu K i j + gTermPerp p z qu K i j) g := by
  have hp0 : ∀ K, gTermPerp p z qu K i j = 0 := by
    intro K
    unfold gTermPerp
    rw [h3]
  have hf : ∀ K, factor p K = prefactor p * Real.exp (-keK p K / scale p) / keK p K := by
    intro K
    unfold factor
    rw [h3]
  simp only [hp0, add_zero, gTerm, hf]
  have h1 := (continuous_keK p).continuousAt (x := g)
  have h2 := (continuous_expFactor p i.1).continuousAt (x := g)
  have h3 := (continuous_expFactor p j.1).continuousAt (x := g)
  have h4 := (continuous_dotFactor p z qu i.1 i.2).continuousAt (x := g)
  have h5 := (continuous_dotFactor p z qu j.1 j.2).continuousAt (x := g)
  have hfc : ContinuousAt (fun K => prefactor p * Real.exp (-keK p K / scale p) / keK p K) g := by
    refine ContinuousAt.div ?_ h1 hg.ne'
    fun_prop
  have hfc' : ContinuousAt (fun K => ((prefactor p * Real.exp (-keK p K / scale p) / keK p K : ℝ) : ℂ)) g :=
    Complex.continuous_ofReal.continuousAt.comp hfc
  exact (hfc'.mul (h4.mul h2).star).mul (h5.mul h3)

theorem zMass_eq (p : Polar n) (a : Fin n) (e u : Fin 3) : zMass p a e u = p.Z a e u / rootMass p a := by
  unfold zMass rootMass
  split <;> simp

/-- **C173**: in three dimensions, for small wave vectors, the dynamical matrix differs from the one at the center of the Brillouin zone by
the nonanalytic term, which depends on the direction of the wave vector only, and no term at all below the tolerance. How small the wave
vector has to be does not depend on the tolerance. -/
theorem C173_splitting (p : Polar n) (hp : Dual p) (h3 : p.lr2d = false) {c : ℝ} (hc : 0 < c)
    (he : ∀ K : Fin 3 → ℝ, c * ∑ x, K x ^ 2 ≤ ∑ x, ∑ y, K x * p.eps x y * K y) (Gmax : ℝ) (G2d : Bool) (h0 : 0 < scale p * Gmax) {η : ℝ}
    (hη : 0 ≤ η) (hg : ∀ g ∈ gList p Gmax G2d, g ≠ 0 → η < ∑ x, ∑ y, g x * p.eps x y * g y)
    (l : List (V3 × (Fin n × Fin 3 → Fin n × Fin 3 → ℂ))) (i j : Fin n × Fin 3) {δ : ℝ} (hδ : 0 < δ) :
    ∃ ρ, 0 < ρ ∧ ∀ tol, 0 ≤ tol → tol ≤ η → ∀ q : Fin 3 → ℝ, (∀ x, |q x| < ρ) →
      (tol < ∑ x, ∑ y, wave p q x * p.eps x y * wave p q y →
        ‖DTol p tol Gmax G2d l q i j - DTol p tol Gmax G2d l 0 i j - (nonanalytic p (wave p q) i j : ℂ)‖ < δ) ∧
      (∑ x, ∑ y, wave p q x * p.eps x y * wave p q y ≤ tol →
        ‖DTol p tol Gmax G2d l q i j - DTol p tol Gmax G2d l 0 i j‖ < δ) := by
  have hk : ∀ K, keK p K = ∑ x, ∑ y, K x * p.eps x y * K y := by
    intro K
    rw [keK, h3]
    rfl
  have hlim := limit_3d p h3 hc he (zMass p) (qMass p) i j
  have hna : ∀ K, prefactor p * ((∑ e, K e * zMass p i.1 e i.2) * (∑ e, K e * zMass p j.1 e j.2) / keK p K) = nonanalytic p K i j := by
    intro K
    unfold nonanalytic
    have e : ∀ a u, ∑ e, K e * zMass p a e u = (∑ e, K e * p.Z a e u) / rootMass p a := by
      intro a u
      rw [Finset.sum_div]
      exact Finset.sum_congr rfl fun x _ => by rw [zMass_eq]; ring
    rw [e, e, hk, prefactor_3d p h3]
    ring
  simp only [hna] at hlim
  have := splitting_of p hp Gmax G2d h0 (η := η) (fun g h1 h2 => by rw [hk]; exact hg g h1 h2) l i j
    (fun g h1 h2 => continuousAt_3d p h3 _ _ i j g (lt_of_le_of_lt hη (by rw [hk]; exact hg g h1 h2)))
    (fun K => (nonanalytic p K i j : ℂ)) hlim hδ
  simpa only [hk] using this

/-- **C173**: for wave vectors that are smaller than the tolerance of the code, there is no splitting: dynamical matrices are continuous at
the center of the Brillouin zone. -/
theorem C173_tolerance (p : Polar n) (hp : Dual p) (h3 : p.lr2d = false) {c : ℝ} (hc : 0 < c)
    (he : ∀ K : Fin 3 → ℝ, c * ∑ x, K x ^ 2 ≤ ∑ x, ∑ y, K x * p.eps x y * K y) (Gmax : ℝ) (G2d : Bool) (h0 : 0 < scale p * Gmax)
    (hg : ∀ g ∈ gList p Gmax G2d, g ≠ 0 → 1e-10 < ∑ x, ∑ y, g x * p.eps x y * g y)
    (l : List (V3 × (Fin n × Fin 3 → Fin n × Fin 3 → ℂ))) (i j : Fin n × Fin 3) :
    ContinuousAt (fun q => Dfull p Gmax G2d l q i j) 0 := by
  have hk : ∀ K, keK p K = ∑ x, ∑ y, K x * p.eps x y * K y := by
    intro K
    rw [keK, h3]
    rfl
  rw [Metric.continuousAt_iff]
  intro δ hδ
  obtain ⟨ρ, hρ, h⟩ := C173_splitting p hp h3 hc he Gmax G2d h0 (η := 1e-10) (by norm_num) hg l i j hδ
  have hev : ∀ᶠ q in 𝓝 (0 : Fin 3 → ℝ), keK p (wave p q) < 1e-10 := by
    have : Tendsto (fun q => keK p (wave p q)) (𝓝 0) (𝓝 0) := by
      have ht := ((continuous_keK p).comp (continuous_wave p)).tendsto 0
      rw [Function.comp_apply, wave_zero, keK_zero] at ht
      exact ht
    exact this.eventually_lt_const (by norm_num)
  obtain ⟨ρ', hρ', h'⟩ := Metric.eventually_nhds_iff.1 hev
  refine ⟨min ρ ρ', lt_min hρ hρ', fun q hq => ?_⟩
  have hq1 : ∀ x, |q x| < ρ := by
    rw [dist_zero_right, pi_norm_lt_iff (lt_min hρ hρ')] at hq
    exact fun x => lt_of_lt_of_le (by simpa using hq x) (min_le_left _ _)
  have h2 := (h 1e-10 (by norm_num) le_rfl q hq1).2
    (by rw [← hk]; exact (h' (lt_of_lt_of_le hq (min_le_right _ _))).le)
  rw [DTol_default] at h2
  rwa [dist_eq_norm]

/-- **C173**: if the crystal is neutral, acoustic modes are not affected: for small wave vectors, the force per displacement caused by a
displacement of the crystal as a whole is small. -/
theorem C173_acoustic (p : Polar n) (hp : Dual p) (h3 : p.lr2d = false) (hM : ∀ a, 0 < p.M a) {c : ℝ} (hc : 0 < c)
    (he : ∀ K : Fin 3 → ℝ, c * ∑ x, K x ^ 2 ≤ ∑ x, ∑ y, K x * p.eps x y * K y) (hZ : ∀ x y, ∑ a, p.Z a x y = 0) (Gmax : ℝ) (G2d : Bool)
    (h0 : 0 < scale p * Gmax) {η : ℝ} (hη : 0 ≤ η) (hg : ∀ g ∈ gList p Gmax G2d, g ≠ 0 → η < ∑ x, ∑ y, g x * p.eps x y * g y)
    (l : List (V3 × (Fin n × Fin 3 → Fin n × Fin 3 → ℂ))) (i : Fin n × Fin 3) (y : Fin 3) {δ : ℝ} (hδ : 0 < δ) :
    ∃ ρ, 0 < ρ ∧ ∀ tol, 0 ≤ tol → tol ≤ η → ∀ q : Fin 3 → ℝ, (∀ x, |q x| < ρ) →
      ‖∑ a, DTol p tol Gmax G2d l q i (a, y) * (rootMass p a : ℂ) - ∑ a, DTol p tol Gmax G2d l 0 i (a, y) * (rootMass p a : ℂ)‖ < δ := by
  have hr : ∀ a, 0 < rootMass p a := by
    intro a
    unfold rootMass
    split
    · exact Real.sqrt_pos.2 (hM a)
    · exact one_pos
  have hS : 0 < (∑ a, rootMass p a) + 1 := by
    have := Finset.sum_nonneg fun a (_ : a ∈ Finset.univ) => (hr a).le
    linarith
  have hex : ∀ a, ∃ ρ, 0 < ρ ∧ ∀ tol, 0 ≤ tol → tol ≤ η → ∀ q : Fin 3 → ℝ, (∀ x, |q x| < ρ) →
      ∃ na : ℝ, (na = nonanalytic p (wave p q) i (a, y) ∨ na = 0) ∧ (na = if tol < keK p (wave p q) then nonanalytic p (wave p q) i (a, y) else 0) ∧
        ‖DTol p tol Gmax G2d l q i (a, y) - DTol p tol Gmax G2d l 0 i (a, y) - (na : ℂ)‖ < δ / ((∑ a, rootMass p a) + 1) := by
    intro a
    obtain ⟨ρ, hρ, h⟩ := C173_splitting p hp h3 hc he Gmax G2d h0 hη hg l i (a, y) (div_pos hδ hS)
    have hk : ∀ K, keK p K = ∑ x, ∑ y, K x * p.eps x y * K y := by
      intro K
      rw [keK, h3]
      rfl
    refine ⟨ρ, hρ, fun tol h1 h2 q hq => ⟨if tol < keK p (wave p q) then nonanalytic p (wave p q) i (a, y) else 0, ?_, rfl, ?_⟩⟩
    · split
      · exact Or.inl rfl
      · exact Or.inr rfl
    · have := h tol h1 h2 q hq
      rw [← hk] at this
      split
      · rename_i ht
        exact this.1 ht
      · rename_i ht
        rw [Complex.ofReal_zero, sub_zero]
        exact this.2 (not_lt.1 ht)
  choose ρ hρ h using hex
  rcases n.eq_zero_or_pos with hn | hn
  · subst hn
    exact i.1.elim0
  have hne : (Finset.univ : Finset (Fin n)).Nonempty := ⟨⟨0, hn⟩, Finset.mem_univ _⟩
  refine ⟨Finset.univ.inf' hne ρ, (Finset.lt_inf'_iff hne).2 fun a _ => hρ a, fun tol h1 h2 q hq => ?_⟩
  have hq' : ∀ a x, |q x| < ρ a := fun a x => lt_of_lt_of_le (hq x) (Finset.inf'_le _ (Finset.mem_univ a))
  choose na _ hna hb using fun a => h a tol h1 h2 q (hq' a)
  have hz : ∑ a, (na a : ℂ) * (rootMass p a : ℂ) = 0 := by
    simp only [hna]
    split
    · have : ∀ a, nonanalytic p (wave p q) i (a, y) * rootMass p a =
          coulomb3d p * ((∑ x, wave p q x * p.Z i.1 x i.2) / rootMass p i.1) / (∑ x, ∑ y, wave p q x * p.eps x y * wave p q y) *
            ∑ x, wave p q x * p.Z a x y := by
        intro a
        unfold nonanalytic
        have := (hr a).ne'
        field_simp
      have hz : ∑ a, nonanalytic p (wave p q) i (a, y) * rootMass p a = 0 := by
        have hs : ∑ a, ∑ x, wave p q x * p.Z a x y = 0 := by
          rw [Finset.sum_comm]
          exact Finset.sum_eq_zero fun x _ => by rw [← Finset.mul_sum, hZ, mul_zero]
        rw [Finset.sum_congr rfl fun a _ => this a, ← Finset.mul_sum, hs, mul_zero]
      exact_mod_cast hz
    · simp
  have e : ∑ a, DTol p tol Gmax G2d l q i (a, y) * (rootMass p a : ℂ) - ∑ a, DTol p tol Gmax G2d l 0 i (a, y) * (rootMass p a : ℂ) =
      ∑ a, (DTol p tol Gmax G2d l q i (a, y) - DTol p tol Gmax G2d l 0 i (a, y) - (na a : ℂ)) * (rootMass p a : ℂ) := by
    simp only [sub_mul, Finset.sum_sub_distrib, hz, sub_zero]
  rw [e]
  refine lt_of_le_of_lt (norm_sum_le _ _) ?_
  calc ∑ a, ‖(DTol p tol Gmax G2d l q i (a, y) - DTol p tol Gmax G2d l 0 i (a, y) - (na a : ℂ)) * (rootMass p a : ℂ)‖
      ≤ ∑ a, δ / ((∑ a, rootMass p a) + 1) * rootMass p a := by
        refine Finset.sum_le_sum fun a _ => ?_
        rw [norm_mul, Complex.norm_real, Real.norm_eq_abs, abs_of_pos (hr a)]
        exact mul_le_mul_of_nonneg_right (hb a).le (hr a).le
    _ = δ * ((∑ a, rootMass p a) / ((∑ a, rootMass p a) + 1)) := by
        rw [← Finset.mul_sum]
        ring
    _ < δ * 1 := by
        refine mul_lt_mul_of_pos_left ?_ hδ
        rw [div_lt_one hS]
        linarith
    _ = δ := mul_one δ

end Verif.Phon.Splitting
