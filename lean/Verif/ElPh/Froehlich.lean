import Verif.Phon.SplittingPlane
import Verif.Phon.SplittingCheck
import Verif.ElPh.LongRange

/-!
# Property C175: long-range coupling near the center of the Brillouin zone
-/

namespace Verif.ElPh.Froehlich

open Verif.Phon Verif.Phon.Splitting Filter Topology
open Verif.Phon.Super (Dual)

variable {n : Nat}

/-- `elphmod/elph.py` 199-203 (`g_lr`) with any value of the argument `eps` of `generate_long_range` (`gLr` is for the default). -/
noncomputable def gTol (p : Polar n) (tol : ℝ) (G : List (Fin 3 → ℝ)) (z : Fin n → Fin 3 → Fin 3 → ℝ)
    (qu : Option (Fin n → Fin 3 → Fin 3 → Fin 3 → ℝ)) (q : Fin 3 → ℝ) (i : Fin n × Fin 3) : ℂ :=
  ((generateTol { p with perp := false } tol G z qu q).map fun t => (t.1 : ℂ) * t.2 i).sum

theorem gTol_default (p : Polar n) (G : List (Fin 3 → ℝ)) (z : Fin n → Fin 3 → Fin 3 → ℝ)
    (qu : Option (Fin n → Fin 3 → Fin 3 → Fin 3 → ℝ)) : gTol p 1e-10 G z qu = gLr p G z qu := rfl

/-! ### Specification -/

/-- Component of the polarization due to an atom along the wave vector. -/
noncomputable def dipole (p : Polar n) (K : Fin 3 → ℝ) (i : Fin n × Fin 3) : ℝ := (∑ x, K x * p.Z i.1 x i.2) / rootMass p i.1

/-- Quadrupole tensors, zero if absent. -/
noncomputable def tensors (p : Polar n) (i : Fin n × Fin 3) (x y : Fin 3) : ℝ :=
  match p.Q with
  | none => 0
  | some Q => Q i.1 i.2 x y

/-- Quadrupole due to an atom. -/
noncomputable def quadrupole (p : Polar n) (K : Fin 3 → ℝ) (i : Fin n × Fin 3) : ℝ :=
  (1 / 2 * ∑ x, ∑ y, K x * tensors p i x y * K y) / rootMass p i.1

/-- Interaction with dipole and quadrupole of a displaced atom in three dimensions, first two orders in the wave vector. -/
noncomputable def froehlich (p : Polar n) (K : Fin 3 → ℝ) (i : Fin n × Fin 3) : ℂ :=
  ((coulomb3d p / (∑ x, ∑ y, K x * p.eps x y * K y) : ℝ) : ℂ) *
    (Complex.I * (dipole p K i : ℂ) + ((quadrupole p K i + dipole p K i * ∑ x, K x * p.r i.1 x : ℝ) : ℂ))

/-- Interaction with a dipole in two dimensions. -/
noncomputable def froehlich2d (p : Polar n) (K : Fin 3 → ℝ) (i : Fin n × Fin 3) : ℂ :=
  Complex.I * ((coulomb2d p * dipole p K i / Real.sqrt (∑ x, K x ^ 2) : ℝ) : ℂ)

/-! ### Sum over reciprocal lattice vectors -/

/-- Contribution of one vector. -/
noncomputable def vTerm (p : Polar n) (z : Fin n → Fin 3 → Fin 3 → ℝ) (qu : Option (Fin n → Fin 3 → Fin 3 → Fin 3 → ℝ))
    (K : Fin 3 → ℝ) (i : Fin n × Fin 3) : ℂ := (factor p K : ℂ) * (dotFactor p z qu K i.1 i.2 * expFactor p K i.1)

open Classical in
theorem gTol_sum (p : Polar n) (tol : ℝ) (G : List (Fin 3 → ℝ)) (z : Fin n → Fin 3 → Fin 3 → ℝ)
    (qu : Option (Fin n → Fin 3 → Fin 3 → Fin 3 → ℝ)) (q : Fin 3 → ℝ) (i : Fin n × Fin 3) :
    gTol p tol G z qu q i = (G.map fun g => if tol < keK p (g + wave p q) then vTerm p z qu (g + wave p q) i else 0).sum := by
  have h : generateTol { p with perp := false } tol G z qu q =
      ((G.map fun g => g + wave p q).filter fun K => decide (keK p K > tol)).map fun K =>
      (factor p K, fun i : Fin n × Fin 3 => dotFactor p z qu K i.1 i.2 * expFactor p K i.1) := by
    have hK : (fun (g : Fin 3 → ℝ) (x : Fin 3) => g x + q 0 * p.b 0 x + q 1 * p.b 1 x + q 2 * p.b 2 x) = fun g => g + wave p q := by
      funext g x
      simp only [Pi.add_apply, wave]
      ring
    rw [← hK]
    obtain ⟨a, b, r, eps, Z, Q, M, lr2d, L, perp, dm, al⟩ := p
    rcases lr2d with _ | _ <;> rcases L with _ | l <;> exact List.append_nil _
  unfold gTol
  rw [h, List.map_map]
  have := filter_sum (G.map fun g => g + wave p q) (fun K => keK p K > tol) (fun K => vTerm p z qu K i)
  rw [List.map_map] at this
  exact this

/-- Contributions of all vectors but the origin, tolerance irrelevant. -/
noncomputable def rest (p : Polar n) (Gmax : ℝ) (G2d : Bool) (q : Fin 3 → ℝ) (i : Fin n × Fin 3) : ℂ :=
  ∑ g ∈ (gList p Gmax G2d).toFinset.erase 0, vTerm p (zMass p) (qMass p) (g + wave p q) i

theorem gTol_split (p : Polar n) (hp : Dual p) (tol Gmax : ℝ) (G2d : Bool) (h0 : 0 < scale p * Gmax) (q : Fin 3 → ℝ)
    (hg : ∀ g ∈ gList p Gmax G2d, g ≠ 0 → tol < keK p (g + wave p q)) (i : Fin n × Fin 3) :
    gTol p tol (gList p Gmax G2d) (zMass p) (qMass p) q i =
      (if tol < keK p (wave p q) then vTerm p (zMass p) (qMass p) (wave p q) i else 0) + rest p Gmax G2d q i := by
  rw [gTol_sum, ← List.sum_toFinset _ (gList_nodup hp Gmax G2d),
    ← Finset.add_sum_erase _ _ (List.mem_toFinset.2 (zero_mem_gList p Gmax G2d h0)), zero_add]
  refine congrArg₂ (· + ·) ?_ ?_
  · by_cases h : tol < keK p (wave p q)
    · rw [if_pos h]
    · rw [if_neg h]
  · unfold rest
    refine Finset.sum_congr rfl fun g hg' => ?_
    rw [Finset.mem_erase, List.mem_toFinset] at hg'
    rw [if_pos (hg g hg'.2 hg'.1)]

/-- Behavior near the center of the Brillouin zone, given the one of the first contribution. -/
theorem froehlich_of (p : Polar n) (hp : Dual p) (Gmax : ℝ) (G2d : Bool) (h0 : 0 < scale p * Gmax) {η : ℝ}
    (hg : ∀ g ∈ gList p Gmax G2d, g ≠ 0 → η < keK p g) (i : Fin n × Fin 3)
    (hc : ∀ g ∈ gList p Gmax G2d, g ≠ 0 → ContinuousAt (fun K => vTerm p (zMass p) (qMass p) K i) g)
    (na : (Fin 3 → ℝ) → ℂ) (hna : Tendsto (fun K => vTerm p (zMass p) (qMass p) K i - na K) (𝓝 0) (𝓝 0)) {δ : ℝ} (hδ : 0 < δ) :
    ∃ ρ, 0 < ρ ∧ ∀ tol, 0 ≤ tol → tol ≤ η → ∀ q : Fin 3 → ℝ, (∀ x, |q x| < ρ) →
      (tol < keK p (wave p q) → ‖gTol p tol (gList p Gmax G2d) (zMass p) (qMass p) q i -
        gTol p tol (gList p Gmax G2d) (zMass p) (qMass p) 0 i - na (wave p q)‖ < δ) ∧
      (keK p (wave p q) ≤ tol → ‖gTol p tol (gList p Gmax G2d) (zMass p) (qMass p) q i -
        gTol p tol (gList p Gmax G2d) (zMass p) (qMass p) 0 i‖ < δ) := by
  have hw : Tendsto (wave p) (𝓝 0) (𝓝 0) := by
    have := (continuous_wave p).tendsto 0
    rwa [wave_zero] at this
  have hgw : ∀ g : Fin 3 → ℝ, Tendsto (fun q => g + wave p q) (𝓝 0) (𝓝 g) := by
    intro g
    have := (tendsto_const_nhds (x := g)).add hw
    rwa [add_zero] at this
  have hB : Tendsto (fun q => rest p Gmax G2d q i - rest p Gmax G2d 0 i) (𝓝 0) (𝓝 0) := by
    have h2 : Tendsto (fun q => rest p Gmax G2d q i) (𝓝 0) (𝓝 (rest p Gmax G2d 0 i)) := by
      unfold rest
      refine tendsto_finset_sum _ fun g hg' => ?_
      rw [Finset.mem_erase, List.mem_toFinset] at hg'
      have := (hc g hg'.2 hg'.1).tendsto.comp (hgw g)
      simp only [wave_zero, add_zero]
      exact this
    have := h2.sub (tendsto_const_nhds (x := rest p Gmax G2d 0 i))
    rwa [sub_self] at this
  have hA := hna.comp hw
  have hev1 : ∀ᶠ q in 𝓝 (0 : Fin 3 → ℝ), ∀ g ∈ (gList p Gmax G2d).toFinset.erase 0, η < keK p (g + wave p q) := by
    rw [Filter.eventually_all_finset]
    intro g hg'
    rw [Finset.mem_erase, List.mem_toFinset] at hg'
    exact (((continuous_keK p).tendsto g).comp (hgw g)).eventually_const_lt (hg g hg'.2 hg'.1)
  have hδ2 : 0 < δ / 2 := by linarith
  have hev2 := (tendsto_zero_iff_norm_tendsto_zero.1 hB).eventually_lt_const hδ2
  have hev3 := (tendsto_zero_iff_norm_tendsto_zero.1 hA).eventually_lt_const hδ2
  obtain ⟨ρ, hρ, h⟩ := Metric.eventually_nhds_iff.1 (hev1.and (hev2.and hev3))
  refine ⟨ρ, hρ, fun tol ht0 htη q hq => ?_⟩
  obtain ⟨h1, h2, h3⟩ := h (y := q) (by
    rw [dist_zero_right, pi_norm_lt_iff hρ]
    exact fun x => by simpa using hq x)
  have hgq : ∀ g ∈ gList p Gmax G2d, g ≠ 0 → tol < keK p (g + wave p q) := fun g hg1 hg2 =>
    lt_of_le_of_lt htη (h1 g (Finset.mem_erase.2 ⟨hg2, List.mem_toFinset.2 hg1⟩))
  have hgz : ∀ g ∈ gList p Gmax G2d, g ≠ 0 → tol < keK p (g + wave p 0) := fun g hg1 hg2 => by
    rw [wave_zero, add_zero]
    exact lt_of_le_of_lt htη (hg g hg1 hg2)
  rw [gTol_split p hp tol Gmax G2d h0 q hgq, gTol_split p hp tol Gmax G2d h0 0 hgz, wave_zero, keK_zero, if_neg (not_lt.2 ht0), zero_add]
  constructor
  · intro hk
    rw [if_pos hk]
    refine lt_of_le_of_lt (le_trans (le_of_eq ?_) (norm_add_le _ _)) (by simpa using add_lt_add h2 h3)
    congr 1
    show _ = _ + (_ - na (wave p q))
    ring
  · intro hk
    rw [if_neg (not_lt.2 hk), zero_add]
    exact lt_trans h2 (by linarith)

/-! ### Three dimensions -/

theorem dot_3d (p : Polar n) (h3 : p.lr2d = false) (K : Fin 3 → ℝ) (i : Fin n × Fin 3) :
    dotFactor p (zMass p) (qMass p) K i.1 i.2 = Complex.I * (dipole p K i : ℂ) + (quadrupole p K i : ℂ) := by
  have e : ∑ e, K e * zMass p i.1 e i.2 = dipole p K i := by
    unfold dipole
    rw [Finset.sum_div]
    exact Finset.sum_congr rfl fun x _ => by rw [zMass_eq]; ring
  unfold dotFactor
  rw [e]
  refine congrArg (fun z => Complex.I * (dipole p K i : ℂ) + z) ?_
  unfold quadrupole tensors qMass rootMass
  rw [h3]
  cases p.Q with
  | none => simp
  | some Q =>
    simp only [Option.map_some, Bool.false_and, Bool.false_eq_true, if_false, sub_zero]
    congr 1
    cases p.divideMass with
    | false =>
      simp
      norm_num
    | true =>
      simp only [if_true]
      rw [mul_div_assoc, Finset.sum_div]
      simp only [Finset.sum_div]
      have : ∀ x y, K x * (Q i.1 i.2 x y / Real.sqrt (p.M i.1)) * K y = K x * Q i.1 i.2 x y * K y / Real.sqrt (p.M i.1) := by
        intro x y
        ring
      simp only [this]
      norm_num

theorem dipole_bound (p : Polar n) (i : Fin n × Fin 3) : ∃ A : ℝ, 0 ≤ A ∧ ∀ K, |dipole p K i| ≤ A * norm3 K := by
  refine ⟨(∑ e, |p.Z i.1 e i.2|) * |(rootMass p i.1)⁻¹|, by positivity, fun K => ?_⟩
  unfold dipole
  rw [div_eq_mul_inv, abs_mul, mul_right_comm]
  exact mul_le_mul_of_nonneg_right (lin_bound K fun e => p.Z i.1 e i.2) (abs_nonneg _)

theorem quadrupole_bound (p : Polar n) (i : Fin n × Fin 3) : ∃ B : ℝ, 0 ≤ B ∧ ∀ K, |quadrupole p K i| ≤ B * norm3 K ^ 2 := by
  refine ⟨1 / 2 * (∑ x, ∑ y, |tensors p i x y|) * |(rootMass p i.1)⁻¹|, by positivity, fun K => ?_⟩
  unfold quadrupole
  rw [div_eq_mul_inv, abs_mul, mul_right_comm]
  refine mul_le_mul_of_nonneg_right ?_ (abs_nonneg _)
  rw [abs_mul, abs_of_pos (by norm_num : (0 : ℝ) < 1 / 2), mul_assoc]
  exact mul_le_mul_of_nonneg_left (quad_bound K _) (by norm_num)

theorem limit_3d (p : Polar n) (h3 : p.lr2d = false) {c : ℝ} (hc : 0 < c)
    (he : ∀ K : Fin 3 → ℝ, c * ∑ x, K x ^ 2 ≤ ∑ x, ∑ y, K x * p.eps x y * K y) (i : Fin n × Fin 3) :
    Tendsto (fun K => vTerm p (zMass p) (qMass p) K i - froehlich p K i) (𝓝 0) (𝓝 0) := by
  obtain ⟨A, hA, hdi⟩ := dipole_bound p i
  obtain ⟨B, hB, hqu⟩ := quadrupole_bound p i
  have hk : ∀ K, keK p K = ∑ x, ∑ y, K x * p.eps x y * K y := by
    intro K
    rw [keK, h3]
    rfl
  let th : (Fin 3 → ℝ) → ℝ := fun K => ∑ x, K x * p.r i.1 x
  have hth : ∀ K, |th K| ≤ (∑ e, |p.r i.1 e|) * norm3 K := fun K => lin_bound K (p.r i.1)
  set T := ∑ e, |p.r i.1 e| with hT
  have hT0 : 0 ≤ T := Finset.sum_nonneg fun _ _ => abs_nonneg _
  set N := ∑ x, ∑ y, |p.eps x y| with hN
  have hN0 : 0 ≤ N := Finset.sum_nonneg fun _ _ => Finset.sum_nonneg fun _ _ => abs_nonneg _
  have hkN : ∀ K, |keK p K| ≤ N * norm3 K ^ 2 := fun K => by
    rw [hk]
    exact quad_bound K p.eps
  let e : (Fin 3 → ℝ) → ℝ := fun K => Real.exp (-keK p K / scale p)
  let W : (Fin 3 → ℝ) → ℂ := fun K => (e K : ℂ) * expFactor p K i.1 - 1
  have hWc : Continuous W := by
    have h1 := continuous_keK p
    have h2 := continuous_expFactor p i.1
    show Continuous fun K => (Real.exp (-keK p K / scale p) : ℂ) * expFactor p K i.1 - 1
    fun_prop
  have hW0 : W 0 = 0 := by
    show (Real.exp (-keK p 0 / scale p) : ℂ) * expFactor p 0 i.1 - 1 = 0
    simp [keK_zero, expFactor]
  have hsmall : ∀ᶠ K in 𝓝 (0 : Fin 3 → ℝ), |-keK p K / scale p| ≤ 1 ∧ |th K| ≤ 1 := by
    have h1 : Tendsto (fun K => |-keK p K / scale p|) (𝓝 0) (𝓝 0) := by
      have h2 := continuous_keK p
      have h3 : Continuous fun K => |-keK p K / scale p| := by fun_prop
      have := h3.tendsto 0
      rw [keK_zero] at this
      simpa using this
    have h2 : Tendsto (fun K => |th K|) (𝓝 0) (𝓝 0) := by
      have h3 : Continuous fun K : Fin 3 → ℝ => |∑ x, K x * p.r i.1 x| := by fun_prop
      have := h3.tendsto 0
      simpa using this
    exact ((h1.eventually_le_const one_pos).and (h2.eventually_le_const one_pos))
  have hbound : ∀ᶠ K in 𝓝 (0 : Fin 3 → ℝ), ‖vTerm p (zMass p) (qMass p) K i - froehlich p K i‖ ≤
      |prefactor p| * (A * (2 * (N * |(scale p)⁻¹|) + T ^ 2) * norm3 K / c + B / c * ‖W K‖) := by
    filter_upwards [hsmall] with K hK
    have hkK : c * norm3 K ^ 2 ≤ keK p K := by
      rw [norm3_sq, hk]
      exact he K
    have hs := Splitting.norm3_nonneg K
    have hd := hdi K
    have hq := hqu K
    have e1 : vTerm p (zMass p) (qMass p) K i - froehlich p K i = (prefactor p : ℂ) *
        (((dipole p K i / keK p K : ℝ) : ℂ) * (Complex.I * (W K + Complex.I * (th K : ℂ))) + ((quadrupole p K i / keK p K : ℝ) : ℂ) * W K) := by
      have hf : factor p K = prefactor p * e K / keK p K := by
        unfold factor
        rw [h3]
      unfold vTerm froehlich
      rw [hf, dot_3d p h3, ← hk, ← prefactor_3d p h3]
      show _ = (prefactor p : ℂ) * (((dipole p K i / keK p K : ℝ) : ℂ) * (Complex.I * (((e K : ℂ) * expFactor p K i.1 - 1) + Complex.I * (th K : ℂ))) +
        ((quadrupole p K i / keK p K : ℝ) : ℂ) * ((e K : ℂ) * expFactor p K i.1 - 1))
      have hI := Complex.I_mul_I
      push_cast
      show (prefactor p : ℂ) * (e K : ℂ) / (keK p K : ℂ) * ((Complex.I * (dipole p K i : ℂ) + (quadrupole p K i : ℂ)) * expFactor p K i.1) -
        (prefactor p : ℂ) / (keK p K : ℂ) * (Complex.I * (dipole p K i : ℂ) + ((quadrupole p K i : ℂ) + (dipole p K i : ℂ) * (∑ x, (K x : ℂ) * (p.r i.1 x : ℂ)))) = _
      have hthc : (th K : ℂ) = ∑ x, (K x : ℂ) * (p.r i.1 x : ℂ) := by
        show ((∑ x, K x * p.r i.1 x : ℝ) : ℂ) = _
        push_cast
        rfl
      rw [← hthc]
      linear_combination (-(prefactor p : ℂ) * (dipole p K i : ℂ) * (th K : ℂ) / (keK p K : ℂ)) * hI
    have hWt : ‖W K + Complex.I * (th K : ℂ)‖ ≤ (2 * (N * |(scale p)⁻¹|) + T ^ 2) * norm3 K ^ 2 := by
      have e2 : W K + Complex.I * (th K : ℂ) = ((e K - 1 : ℝ) : ℂ) * expFactor p K i.1 +
          (Complex.exp (-Complex.I * (th K : ℂ)) - 1 - (-Complex.I * (th K : ℂ))) := by
        show (e K : ℂ) * expFactor p K i.1 - 1 + Complex.I * (th K : ℂ) = _
        have : expFactor p K i.1 = Complex.exp (-Complex.I * (th K : ℂ)) := rfl
        rw [this]
        push_cast
        ring
      rw [e2]
      refine (norm_add_le _ _).trans ?_
      rw [norm_mul, norm_expFactor, mul_one, Complex.norm_real, Real.norm_eq_abs, add_mul]
      refine add_le_add ?_ ?_
      · refine (Real.abs_exp_sub_one_le hK.1).trans ?_
        rw [div_eq_mul_inv, abs_mul, abs_neg]
        have := mul_le_mul_of_nonneg_right (hkN K) (abs_nonneg (scale p)⁻¹)
        linarith
      · have hn : ‖-Complex.I * (th K : ℂ)‖ = |th K| := by
          rw [norm_mul, norm_neg, Complex.norm_I, one_mul, Complex.norm_real, Real.norm_eq_abs]
        refine (Complex.norm_exp_sub_one_sub_id_le (by rw [hn]; exact hK.2)).trans ?_
        rw [hn, ← mul_pow]
        exact pow_le_pow_left₀ (abs_nonneg _) (hth K) 2
    rw [e1, norm_mul, Complex.norm_real, Real.norm_eq_abs]
    refine mul_le_mul_of_nonneg_left ?_ (abs_nonneg _)
    refine (norm_add_le _ _).trans (add_le_add ?_ ?_)
    · rw [norm_mul, norm_mul, Complex.norm_I, one_mul, Complex.norm_real, Real.norm_eq_abs]
      set w := ‖W K + Complex.I * (th K : ℂ)‖ with hw
      have hw0 : 0 ≤ w := norm_nonneg _
      rw [show |dipole p K i / keK p K| * w = |dipole p K i * w / keK p K| by
        rw [mul_div_right_comm, abs_mul, abs_of_nonneg hw0]]
      refine ratio hc hkK (sq_nonneg _) ?_ (by positivity)
      rw [abs_mul, abs_of_nonneg hw0]
      calc |dipole p K i| * w ≤ (A * norm3 K) * ((2 * (N * |(scale p)⁻¹|) + T ^ 2) * norm3 K ^ 2) :=
            mul_le_mul hd hWt hw0 (by positivity)
        _ = _ := by ring
    · rw [norm_mul, Complex.norm_real, Real.norm_eq_abs]
      exact mul_le_mul_of_nonneg_right (ratio hc hkK (sq_nonneg _) hq hB) (norm_nonneg _)
  refine squeeze_zero_norm' hbound ?_
  have hcont : Continuous fun K => |prefactor p| * (A * (2 * (N * |(scale p)⁻¹|) + T ^ 2) * norm3 K / c + B / c * ‖W K‖) := by
    have := continuous_norm3
    fun_prop
  have := hcont.tendsto 0
  rw [hW0, norm3_zero] at this
  simpa using this

theorem continuousAt_3d (p : Polar n) (h3 : p.lr2d = false) (z : Fin n → Fin 3 → Fin 3 → ℝ)
    (qu : Option (Fin n → Fin 3 → Fin 3 → Fin 3 → ℝ)) (i : Fin n × Fin 3) (g : Fin 3 → ℝ) (hg : 0 < keK p g) :
    ContinuousAt (fun K => vTerm p z qu K i) g := by
  have hf : ∀ K, factor p K = prefactor p * Real.exp (-keK p K / scale p) / keK p K := by
    intro K
    unfold factor
    rw [h3]
  simp only [vTerm, hf]
  have h1 := (continuous_keK p).continuousAt (x := g)
  have h2 := (continuous_expFactor p i.1).continuousAt (x := g)
  have h4 := (continuous_dotFactor p z qu i.1 i.2).continuousAt (x := g)
  have hfc : ContinuousAt (fun K => prefactor p * Real.exp (-keK p K / scale p) / keK p K) g := by
    refine ContinuousAt.div ?_ h1 hg.ne'
    fun_prop
  have hfc' : ContinuousAt (fun K => ((prefactor p * Real.exp (-keK p K / scale p) / keK p K : ℝ) : ℂ)) g :=
    Complex.continuous_ofReal.continuousAt.comp hfc
  exact hfc'.mul (h4.mul h2)

/-- **C175**: in three dimensions, for small wave vectors, the long-range coupling is that to dipole and quadrupole in a homogeneous medium, up
to a constant that is the same for all directions; below the tolerance it is this constant. -/
theorem C175_bulk (p : Polar n) (hp : Dual p) (h3 : p.lr2d = false) {c : ℝ} (hc : 0 < c)
    (he : ∀ K : Fin 3 → ℝ, c * ∑ x, K x ^ 2 ≤ ∑ x, ∑ y, K x * p.eps x y * K y) (Gmax : ℝ) (G2d : Bool) (h0 : 0 < scale p * Gmax) {η : ℝ}
    (hη : 0 ≤ η) (hg : ∀ g ∈ gList p Gmax G2d, g ≠ 0 → η < ∑ x, ∑ y, g x * p.eps x y * g y) (i : Fin n × Fin 3) {δ : ℝ} (hδ : 0 < δ) :
    ∃ ρ, 0 < ρ ∧ ∀ tol, 0 ≤ tol → tol ≤ η → ∀ q : Fin 3 → ℝ, (∀ x, |q x| < ρ) →
      (tol < ∑ x, ∑ y, wave p q x * p.eps x y * wave p q y → ‖gTol p tol (gList p Gmax G2d) (zMass p) (qMass p) q i -
        gTol p tol (gList p Gmax G2d) (zMass p) (qMass p) 0 i - froehlich p (wave p q) i‖ < δ) ∧
      (∑ x, ∑ y, wave p q x * p.eps x y * wave p q y ≤ tol → ‖gTol p tol (gList p Gmax G2d) (zMass p) (qMass p) q i -
        gTol p tol (gList p Gmax G2d) (zMass p) (qMass p) 0 i‖ < δ) := by
  have hk : ∀ K, keK p K = ∑ x, ∑ y, K x * p.eps x y * K y := by
    intro K
    rw [keK, h3]
    rfl
  have := froehlich_of p hp Gmax G2d h0 (η := η) (fun g h1 h2 => by rw [hk]; exact hg g h1 h2) i
    (fun g h1 h2 => continuousAt_3d p h3 _ _ i g (lt_of_le_of_lt hη (by rw [hk]; exact hg g h1 h2)))
    (fun K => froehlich p K i) (limit_3d p h3 hc he i) hδ
  simpa only [hk] using this

end Verif.ElPh.Froehlich
