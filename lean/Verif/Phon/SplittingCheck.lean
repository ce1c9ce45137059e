import Verif.Phon.SplittingPlane

/-!
# Property C173: directions and examples
-/

namespace Verif.Phon.Splitting

open Verif.Fourier Filter Topology
open Verif.Voronoi (V3)
open Verif.Phon.Super (Dual gVec_inj)

variable {n : Nat}

theorem wave_smul (p : Polar n) (t : ℝ) (q : Fin 3 → ℝ) : wave p (t • q) = t • wave p q := by
  funext x
  simp only [wave, Pi.smul_apply, smul_eq_mul]
  ring

theorem nonanalytic_smul (p : Polar n) {t : ℝ} (ht : t ≠ 0) (K : Fin 3 → ℝ) (i j : Fin n × Fin 3) :
    nonanalytic p (t • K) i j = nonanalytic p K i j := by
  unfold nonanalytic
  have h1 : ∀ a u, ∑ x, (t • K) x * p.Z a x u = t * ∑ x, K x * p.Z a x u := by
    intro a u
    rw [Finset.mul_sum]
    exact Finset.sum_congr rfl fun x _ => by rw [Pi.smul_apply, smul_eq_mul, mul_assoc]
  have h2 : ∑ x, ∑ y, (t • K) x * p.eps x y * (t • K) y = t ^ 2 * ∑ x, ∑ y, K x * p.eps x y * K y := by
    rw [Finset.mul_sum]
    refine Finset.sum_congr rfl fun x _ => ?_
    rw [Finset.mul_sum]
    exact Finset.sum_congr rfl fun y _ => by rw [Pi.smul_apply, Pi.smul_apply, smul_eq_mul, smul_eq_mul]; ring
  rw [h1, h1, h2]
  rw [show coulomb3d p * (t * (∑ x, K x * p.Z i.1 x i.2) / rootMass p i.1) * (t * (∑ x, K x * p.Z j.1 x j.2) / rootMass p j.1) =
    t ^ 2 * (coulomb3d p * ((∑ x, K x * p.Z i.1 x i.2) / rootMass p i.1) * ((∑ x, K x * p.Z j.1 x j.2) / rootMass p j.1)) by ring]
  exact mul_div_mul_left _ _ (pow_ne_zero 2 ht)

/-- **C173**: if the tolerance is zero, the limit of the dynamical matrix when the center of the Brillouin zone is approached from a certain
direction. -/
theorem C173_direction (p : Polar n) (hp : Dual p) (h3 : p.lr2d = false) {c : ℝ} (hc : 0 < c)
    (he : ∀ K : Fin 3 → ℝ, c * ∑ x, K x ^ 2 ≤ ∑ x, ∑ y, K x * p.eps x y * K y) (Gmax : ℝ) (G2d : Bool) (h0 : 0 < scale p * Gmax)
    (hg : ∀ g ∈ gList p Gmax G2d, g ≠ 0 → 0 < ∑ x, ∑ y, g x * p.eps x y * g y)
    (l : List (V3 × (Fin n × Fin 3 → Fin n × Fin 3 → ℂ))) (i j : Fin n × Fin 3) (d : Fin 3 → ℝ) (hd : wave p d ≠ 0) :
    Tendsto (fun t : ℝ => DTol p 0 Gmax G2d l (t • d) i j) (𝓝[≠] 0)
      (𝓝 (DTol p 0 Gmax G2d l 0 i j + (nonanalytic p (wave p d) i j : ℂ))) := by
  rw [Metric.tendsto_nhds]
  intro δ hδ
  obtain ⟨ρ, hρ, h⟩ := C173_splitting p hp h3 hc he Gmax G2d h0 le_rfl hg l i j hδ
  have h1 : ∀ᶠ t : ℝ in 𝓝[≠] 0, ∀ x, |(t • d) x| < ρ := by
    refine Filter.Eventually.filter_mono nhdsWithin_le_nhds ?_
    rw [Filter.eventually_all]
    intro x
    have : Tendsto (fun t : ℝ => |(t • d) x|) (𝓝 0) (𝓝 0) := by
      have hcont : Continuous fun t : ℝ => |(t • d) x| := by
        simp only [Pi.smul_apply, smul_eq_mul]
        fun_prop
      simpa using hcont.tendsto 0
    exact this.eventually_lt_const hρ
  filter_upwards [h1, self_mem_nhdsWithin] with t ht h0
  have ht0 : t ≠ 0 := h0
  have hne : t • wave p d ≠ 0 := smul_ne_zero ht0 hd
  have hpos : 0 < ∑ x, (t • wave p d) x ^ 2 := by
    obtain ⟨x, hx⟩ := Function.ne_iff.1 hne
    exact Finset.sum_pos' (fun _ _ => sq_nonneg _) ⟨x, Finset.mem_univ x, sq_pos_of_ne_zero hx⟩
  have := (h 0 le_rfl le_rfl (t • d) ht).1 (by
    rw [wave_smul]
    exact lt_of_lt_of_le (mul_pos hc hpos) (he _))
  rw [wave_smul, nonanalytic_smul p ht0, sub_sub] at this
  rwa [dist_eq_norm]

/-- **C173**: the nonanalytic term only increases squared frequencies, and modes without polarization along the wave vector are not
affected. -/
theorem C173_raise (p : Polar n) {c : ℝ} (hc : 0 < c)
    (he : ∀ K : Fin 3 → ℝ, c * ∑ x, K x ^ 2 ≤ ∑ x, ∑ y, K x * p.eps x y * K y) (K : Fin 3 → ℝ) (u : Fin n × Fin 3 → ℂ) :
    ∑ i, ∑ j, star (u i) * (nonanalytic p K i j : ℂ) * u j = ((coulomb3d p / (∑ x, ∑ y, K x * p.eps x y * K y) *
      ‖∑ x, (K x : ℂ) * ∑ i, (p.Z i.1 x i.2 : ℂ) / (rootMass p i.1 : ℂ) * u i‖ ^ 2 : ℝ) : ℂ) ∧
    0 ≤ coulomb3d p / (∑ x, ∑ y, K x * p.eps x y * K y) := by
  constructor
  · have hP : ∑ x, (K x : ℂ) * ∑ i, (p.Z i.1 x i.2 : ℂ) / (rootMass p i.1 : ℂ) * u i =
        ∑ i, (((∑ x, K x * p.Z i.1 x i.2) / rootMass p i.1 : ℝ) : ℂ) * u i := by
      simp only [Finset.mul_sum]
      rw [Finset.sum_comm]
      refine Finset.sum_congr rfl fun i _ => ?_
      push_cast
      rw [Finset.sum_div, Finset.sum_mul]
      exact Finset.sum_congr rfl fun x _ => by ring
    rw [hP]
    generalize hw : (∑ i, (((∑ x, K x * p.Z i.1 x i.2) / rootMass p i.1 : ℝ) : ℂ) * u i) = w
    have hs : ((‖w‖ ^ 2 : ℝ) : ℂ) = star w * w := by
      push_cast
      exact (Complex.conj_mul' w).symm
    rw [Complex.ofReal_mul, hs, ← hw, star_sum, Finset.sum_mul_sum, Finset.mul_sum]
    refine Finset.sum_congr rfl fun i _ => ?_
    rw [Finset.mul_sum]
    refine Finset.sum_congr rfl fun j _ => ?_
    have hstar : ∀ (r : ℝ) (z : ℂ), star ((r : ℂ) * z) = (r : ℂ) * star z := by
      intro r z
      rw [star_mul', Complex.star_def, Complex.conj_ofReal]
    rw [hstar]
    unfold nonanalytic
    push_cast
    ring
  · refine div_nonneg ?_ (le_trans ?_ (he K))
    · unfold coulomb3d
      positivity
    · exact mul_nonneg hc.le (Finset.sum_nonneg fun _ _ => sq_nonneg _)

/-! ### Examples -/

/-- A cubic ionic crystal with two atoms of opposite charge. -/
noncomputable def ionic (lr2d : Bool) : Polar 2 where
  a x y := if x = y then 2 else 0
  b x y := if x = y then 1 / 2 else 0
  r k _ := if k = 0 then 0 else 1
  eps x y := if x = y then 3 else 0
  Z k x y := if x = y then if k = 0 then 1 else -1 else 0
  Q := none
  M k := if k = 0 then 1 else 4
  lr2d := lr2d
  L := some 1
  perp := false
  divideMass := true
  alpha := 1

theorem ionic_dual (lr2d : Bool) : Dual (ionic lr2d) := by
  intro i j
  fin_cases i <;> fin_cases j <;> simp [dot3, ionic, Fin.sum_univ_three, fin3]

theorem ionic_eps (lr2d : Bool) (K : Fin 3 → ℝ) : ∑ x, ∑ y, K x * (ionic lr2d).eps x y * K y = 3 * ∑ x, K x ^ 2 := by
  simp only [ionic, Fin.sum_univ_three, fin3, if_true, if_false]
  simp [fin3]
  ring

theorem ionic_scale (lr2d : Bool) : 0 < scale (ionic lr2d) * 10 := by
  have : 0 < norm3 ((ionic lr2d).a 0) := Real.sqrt_pos.2 (by simp [ionic, Fin.sum_univ_three, fin3])
  have h : (ionic lr2d).alpha = 1 := rfl
  unfold scale
  rw [h]
  positivity

theorem ionic_gap (lr2d G2d : Bool) (g : Fin 3 → ℝ) (hg : g ∈ gList (ionic lr2d) 10 G2d) (h0 : g ≠ 0) : 1 < ∑ x, g x ^ 2 := by
  unfold gList at hg
  rw [List.mem_map] at hg
  obtain ⟨m, -, rfl⟩ := hg
  have hx : ∀ x, gVec (ionic lr2d) m x = Real.pi * ((if x = 0 then m.1 else if x = 1 then m.2.1 else m.2.2 : ℤ) : ℝ) := by
    intro x
    fin_cases x <;> simp [gVec, ionic, fin3] <;> ring
  obtain ⟨x, hx0⟩ := Function.ne_iff.1 h0
  rw [Pi.zero_apply, hx] at hx0
  have hz : ((if x = 0 then m.1 else if x = 1 then m.2.1 else m.2.2 : ℤ)) ≠ 0 := by
    intro h
    rw [h] at hx0
    simp at hx0
  have h1 : (1 : ℝ) ≤ ((if x = 0 then m.1 else if x = 1 then m.2.1 else m.2.2 : ℤ) : ℝ) ^ 2 := by
    have := Int.one_le_abs hz
    have h2 : (1 : ℤ) ≤ (if x = 0 then m.1 else if x = 1 then m.2.1 else m.2.2) ^ 2 := by
      rw [← sq_abs]
      nlinarith
    exact_mod_cast h2
  refine lt_of_lt_of_le ?_ (Finset.single_le_sum (f := fun x => gVec (ionic lr2d) m x ^ 2) (fun _ _ => sq_nonneg _) (Finset.mem_univ x))
  show 1 < gVec (ionic lr2d) m x ^ 2
  rw [hx, mul_pow]
  have := Real.pi_gt_three
  nlinarith

theorem ionic_gap3 (lr2d G2d : Bool) {η : ℝ} (hη : η ≤ 1) (g : Fin 3 → ℝ) (hg : g ∈ gList (ionic lr2d) 10 G2d) (h0 : g ≠ 0) :
    η < ∑ x, ∑ y, g x * (ionic lr2d).eps x y * g y := by
  rw [ionic_eps]
  linarith [ionic_gap lr2d G2d g hg h0]

theorem ionic_pol (lr2d : Bool) (K : Fin 3 → ℝ) : 0 ≤ polarizability (ionic lr2d) K := by
  have : polarizability (ionic lr2d) K = 2 * (K 0 ^ 2 + K 1 ^ 2) := by
    simp [polarizability, ionic, fin3]
    ring
  rw [this]
  positivity

/-- For wave vectors along `x`, forces between the atoms along `x` change by `-(π / 3) / 2`, not those along `y`. -/
theorem ionic_value : nonanalytic (ionic false) (Pi.single 0 1) (0, 0) (1, 0) = -(Real.pi / 6) ∧
    nonanalytic (ionic false) (Pi.single 0 1) (0, 1) (1, 1) = 0 := by
  have h4 : Real.sqrt 4 = 2 := by
    rw [show (4 : ℝ) = 2 ^ 2 by norm_num]
    exact Real.sqrt_sq (by norm_num)
  have hr : rootMass (ionic false) 0 = 1 ∧ rootMass (ionic false) 1 = 2 := by
    constructor
    · simp [rootMass, ionic]
    · simp [rootMass, ionic, h4]
  have hc : coulomb3d (ionic false) = Real.pi := by
    simp [coulomb3d, ionic, fin3]
    norm_num
  unfold nonanalytic
  rw [hr.1, hr.2, hc, ionic_eps]
  constructor
  · simp [ionic, Fin.sum_univ_three, fin3]
    ring
  · simp [ionic, Fin.sum_univ_three, fin3]

theorem ionic_wave (t : ℝ) : wave (ionic false) (Pi.single 0 t) = (t / 2) • (Pi.single 0 1 : Fin 3 → ℝ) := by
  funext x
  fin_cases x <;> simp [wave, ionic, fin3]
  ring

example (l : List (V3 × (Fin 2 × Fin 3 → Fin 2 × Fin 3 → ℂ))) (i j : Fin 2 × Fin 3) :=
  C173_splitting (ionic false) (ionic_dual _) rfl (c := 3) (by norm_num) (fun K => (ionic_eps false K).ge) 10 false (ionic_scale _)
    (η := 1) zero_le_one (ionic_gap3 _ _ le_rfl) l i j (δ := 1 / 1000) (by norm_num)

example (l : List (V3 × (Fin 2 × Fin 3 → Fin 2 × Fin 3 → ℂ))) (i j : Fin 2 × Fin 3) :
    ContinuousAt (fun q => Dfull (ionic false) 10 false l q i j) 0 :=
  C173_tolerance (ionic false) (ionic_dual _) rfl (c := 3) (by norm_num) (fun K => (ionic_eps false K).ge) 10 false (ionic_scale _)
    (ionic_gap3 _ _ (by norm_num)) l i j

example (l : List (V3 × (Fin 2 × Fin 3 → Fin 2 × Fin 3 → ℂ))) (i : Fin 2 × Fin 3) (y : Fin 3) :=
  C173_acoustic (ionic false) (ionic_dual _) rfl (fun a => by fin_cases a <;> simp [ionic]) (c := 3) (by norm_num)
    (fun K => (ionic_eps false K).ge) (fun x y => by by_cases h : x = y <;> simp [ionic, Fin.sum_univ_two, h]) 10 false (ionic_scale _)
    (η := 1) zero_le_one (ionic_gap3 _ _ le_rfl) l i y (δ := 1 / 1000) (by norm_num)

example (l : List (V3 × (Fin 2 × Fin 3 → Fin 2 × Fin 3 → ℂ))) (i j : Fin 2 × Fin 3) :=
  C173_plane (ionic true) (ionic_dual _) rfl (ionic_pol _) 10 false (ionic_scale _) (η := 1) zero_le_one (ionic_gap _ _)
    (fun _ _ _ _ _ h => by cases h) l i j (δ := 1 / 1000) (by norm_num)

example (K : Fin 3 → ℝ) (u : Fin 2 × Fin 3 → ℂ) :=
  C173_raise (ionic false) (c := 3) (by norm_num) (fun K => (ionic_eps false K).ge) K u

theorem ionic_limit (l : List (V3 × (Fin 2 × Fin 3 → Fin 2 × Fin 3 → ℂ))) :
    Tendsto (fun t : ℝ => DTol (ionic false) 0 10 false l (t • Pi.single 0 1) (0, 0) (1, 0)) (𝓝[≠] 0)
      (𝓝 (DTol (ionic false) 0 10 false l 0 (0, 0) (1, 0) - (Real.pi / 6 : ℝ))) := by
  have hw : wave (ionic false) (Pi.single 0 1) ≠ 0 := by
    rw [ionic_wave]
    intro h
    have := congrFun h 0
    simp at this
  have h := C173_direction (ionic false) (ionic_dual _) rfl (c := 3) (by norm_num) (fun K => (ionic_eps false K).ge) 10 false (ionic_scale _)
    (ionic_gap3 _ _ zero_le_one) l (0, 0) (1, 0) (Pi.single 0 1) hw
  rw [ionic_wave, nonanalytic_smul _ (by norm_num), ionic_value.1, Complex.ofReal_neg, ← sub_eq_add_neg] at h
  exact h

/-- **C173**: with the default tolerance, the limit is not the one of the nonanalytic term, whatever the force constants: close to the
center of the Brillouin zone, longitudinal modes have the frequencies of transverse modes. -/
theorem C173_direction_violated : ∃ (p : Polar 2) (i j : Fin 2 × Fin 3) (d : Fin 3 → ℝ), Dual p ∧ p.lr2d = false ∧ wave p d ≠ 0 ∧
    ∀ l : List (V3 × (Fin 2 × Fin 3 → Fin 2 × Fin 3 → ℂ)),
      Tendsto (fun t : ℝ => Dfull p 10 false l (t • d) i j) (𝓝[≠] 0) (𝓝 (Dfull p 10 false l 0 i j)) ∧
      ¬ Tendsto (fun t : ℝ => Dfull p 10 false l (t • d) i j) (𝓝[≠] 0) (𝓝 (Dfull p 10 false l 0 i j + (nonanalytic p (wave p d) i j : ℂ))) := by
  refine ⟨ionic false, (0, 0), (1, 0), Pi.single 0 1, ionic_dual _, rfl, ?_, fun l => ?_⟩
  · rw [ionic_wave]
    intro h
    have := congrFun h 0
    simp at this
  have hc := C173_tolerance (ionic false) (ionic_dual _) rfl (c := 3) (by norm_num) (fun K => (ionic_eps false K).ge) 10 false (ionic_scale _)
    (ionic_gap3 _ _ (by norm_num)) l (0, 0) (1, 0)
  have h1 : Tendsto (fun t : ℝ => Dfull (ionic false) 10 false l (t • Pi.single 0 1) (0, 0) (1, 0)) (𝓝[≠] 0)
      (𝓝 (Dfull (ionic false) 10 false l 0 (0, 0) (1, 0))) := by
    have ht : Tendsto (fun t : ℝ => t • (Pi.single 0 1 : Fin 3 → ℝ)) (𝓝[≠] 0) (𝓝 0) := by
      have hcont : Continuous fun t : ℝ => t • (Pi.single 0 1 : Fin 3 → ℝ) := by fun_prop
      have := hcont.tendsto 0
      rw [zero_smul] at this
      exact this.mono_left nhdsWithin_le_nhds
    exact hc.tendsto.comp ht
  refine ⟨h1, fun h2 => ?_⟩
  have := tendsto_nhds_unique h1 h2
  rw [ionic_wave, nonanalytic_smul _ (by norm_num), ionic_value.1] at this
  have h3 : ((-(Real.pi / 6) : ℝ) : ℂ) = 0 := by
    have := this.symm
    simpa using this
  rw [Complex.ofReal_eq_zero] at h3
  linarith [Real.pi_pos]

end Verif.Phon.Splitting
