import Verif.Phon.LongRange
import Mathlib.Analysis.SpecialFunctions.Trigonometric.DerivHyp
import Mathlib.Topology.Algebra.Order.Field

/-!
# Property C131: Coulomb kernels of the long-range terms

The behavior at large wave vectors is determined by the range-separation length, the one at small wave vectors is independent of it.
-/

namespace Verif.Phon

open Verif.Fourier Filter Topology

variable {n : Nat}

theorem tanhFactor_eq (p : Polar n) (l : ℝ) (K : Fin 3 → ℝ) : tanhFactor p l K = 2 / (1 + Real.exp (Real.sqrt (keK p K) * l)) := by
  unfold tanhFactor
  rw [Real.tanh_eq_sinh_div_cosh, Real.sinh_eq, Real.cosh_eq, Real.exp_neg]
  have h : Real.exp (Real.sqrt (keK p K) * l) = Real.exp (Real.sqrt (keK p K) * l / 2) ^ 2 := by
    rw [sq, ← Real.exp_add]
    congr 1
    ring
  rw [h]
  have := Real.exp_pos (Real.sqrt (keK p K) * l / 2)
  generalize Real.exp (Real.sqrt (keK p K) * l / 2) = y at *
  field_simp
  ring

theorem tanhFactor_bounds (p : Polar n) (l : ℝ) (hl : 0 ≤ l) (K : Fin 3 → ℝ) :
    Real.exp (-(Real.sqrt (keK p K) * l)) ≤ tanhFactor p l K ∧ tanhFactor p l K ≤ 2 * Real.exp (-(Real.sqrt (keK p K) * l)) := by
  rw [tanhFactor_eq, Real.exp_neg]
  have h : 1 ≤ Real.exp (Real.sqrt (keK p K) * l) := Real.one_le_exp (by positivity)
  generalize Real.exp (Real.sqrt (keK p K) * l) = y at *
  constructor
  · rw [le_div_iff₀ (by linarith), inv_mul_le_iff₀ (by linarith)]
    linarith
  · rw [← div_eq_mul_inv]
    apply div_le_div_of_nonneg_left <;> linarith

theorem kernel_mono {P k r x y : ℝ} (hP : 0 ≤ P) (hk : 0 < k) (hr : 0 ≤ r) (hx : 0 ≤ x) (h : x ≤ y) :
    P * x / (k + x * r) ≤ P * y / (k + y * r) := by
  have hy := hx.trans h
  rw [div_le_div_iff₀ (by positivity) (by positivity)]
  nlinarith [mul_le_mul_of_nonneg_left h (mul_nonneg hP hk.le)]

/-! ### Specification -/

/-- Area of the surface unit cell, charge² = 2 in Rydberg units: Coulomb interaction in two dimensions is `2 π e² / (A |K|)`. -/
noncomputable def coulomb2d (p : Polar n) : ℝ :=
  4 * Real.pi / Real.sqrt ((p.a 0 1 * p.a 1 2 - p.a 0 2 * p.a 1 1) ^ 2 + (p.a 0 2 * p.a 1 0 - p.a 0 0 * p.a 1 2) ^ 2 +
    (p.a 0 0 * p.a 1 1 - p.a 0 1 * p.a 1 0) ^ 2)

/-- Coulomb interaction in three dimensions is `4 π e² / (Ω K²)`; determinant of the lattice vectors. -/
noncomputable def coulomb3d (p : Polar n) : ℝ :=
  8 * Real.pi / |p.a 0 0 * (p.a 1 1 * p.a 2 2 - p.a 1 2 * p.a 2 1) + p.a 0 1 * (p.a 1 2 * p.a 2 0 - p.a 1 0 * p.a 2 2) +
    p.a 0 2 * (p.a 1 0 * p.a 2 1 - p.a 1 1 * p.a 2 0)|

/-- In-plane polarizability `(ε - 1) c / 2` along a wave vector, where `c` is the height of the unit cell. -/
noncomputable def polarizability (p : Polar n) (K : Fin 3 → ℝ) : ℝ :=
  ((p.eps 0 0 - 1) * K 0 ^ 2 + (p.eps 0 1 + p.eps 1 0) * K 0 * K 1 + (p.eps 1 1 - 1) * K 1 ^ 2) / p.b 2 2 / 2

/-! ### Proofs -/

theorem prefactor_2d (p : Polar n) (h : p.lr2d = true) : prefactor p = coulomb2d p := by
  unfold prefactor coulomb2d norm3
  simp only [h, if_true, Verif.Bravais.cross, Fin.sum_univ_three]
  simp
  ring

theorem prefactor_3d (p : Polar n) (h : p.lr2d = false) : prefactor p = coulomb3d p := by
  unfold prefactor coulomb3d
  simp only [h, Verif.Bravais.cross, Fin.sum_univ_three]
  simp
  ring_nf

theorem krK_eq (p : Polar n) (K : Fin 3 → ℝ) : krK p K = polarizability p K := by
  unfold krK polarizability rEff
  simp only [Fin.sum_univ_two]
  simp
  ring

/-- **C131**: for a slab of thickness `L`, the in-plane kernel falls off like `exp(-|K| L)`, between `v x / (|K| + x K r K)` for
`x = exp(-|K| L)` and `x = 2 exp(-|K| L)`. -/
theorem C131_decay (p : Polar n) (h2 : p.lr2d = true) (l : ℝ) (hL : p.L = some l) (hl : 0 ≤ l) (K : Fin 3 → ℝ)
    (hK : 0 < ∑ x, K x ^ 2) (hr : 0 ≤ polarizability p K) :
    coulomb2d p * Real.exp (-(Real.sqrt (∑ x, K x ^ 2) * l)) /
        (Real.sqrt (∑ x, K x ^ 2) + Real.exp (-(Real.sqrt (∑ x, K x ^ 2) * l)) * polarizability p K) ≤ factor p K ∧
      factor p K ≤ coulomb2d p * (2 * Real.exp (-(Real.sqrt (∑ x, K x ^ 2) * l))) /
        (Real.sqrt (∑ x, K x ^ 2) + 2 * Real.exp (-(Real.sqrt (∑ x, K x ^ 2) * l)) * polarizability p K) := by
  have hk : keK p K = ∑ x, K x ^ 2 := by rw [keK, h2]; rfl
  have hk0 : 0 < Real.sqrt (∑ x, K x ^ 2) := Real.sqrt_pos.2 hK
  have hP : 0 ≤ coulomb2d p := by
    unfold coulomb2d
    positivity
  obtain ⟨b1, b2⟩ := tanhFactor_bounds p l hl K
  have e : factor p K = coulomb2d p * tanhFactor p l K / (Real.sqrt (∑ x, K x ^ 2) + tanhFactor p l K * polarizability p K) := by
    unfold factor
    rw [h2, hL]
    simp only
    rw [krK_eq, hk, prefactor_2d p h2]
    generalize Real.sqrt (∑ x, K x ^ 2) = k at *
    have : 0 ≤ tanhFactor p l K := le_trans (Real.exp_pos _).le b1
    rw [div_div, div_eq_div_iff (by positivity) (by positivity)]
    field_simp
  rw [hk] at b1 b2
  have p1 := Real.exp_pos (-(Real.sqrt (∑ x, K x ^ 2) * l))
  rw [e]
  exact ⟨kernel_mono hP hk0 hr p1.le b1, kernel_mono hP hk0 hr (p1.le.trans b1) b2⟩

theorem keK_smul (p : Polar n) (t : ℝ) (K : Fin 3 → ℝ) : keK p (fun x => t * K x) = t ^ 2 * keK p K := by
  unfold keK
  split
  · rw [Finset.mul_sum]
    exact Finset.sum_congr rfl fun x _ => by ring
  · rw [Finset.mul_sum]
    refine Finset.sum_congr rfl fun x _ => ?_
    rw [Finset.mul_sum]
    exact Finset.sum_congr rfl fun y _ => by ring

theorem polarizability_smul (p : Polar n) (t : ℝ) (K : Fin 3 → ℝ) :
    polarizability p (fun x => t * K x) = t ^ 2 * polarizability p K := by
  unfold polarizability
  ring

/-- **C131**: in two dimensions, the kernel approaches the bare Coulomb interaction for small wave vectors, whether range separation is done with
`L` or with `alpha`, and whatever their values. -/
theorem C131_limit_2d (p : Polar n) (h2 : p.lr2d = true) (K : Fin 3 → ℝ) (hK : 0 < ∑ x, K x ^ 2) :
    Tendsto (fun t : ℝ => t * Real.sqrt (∑ x, K x ^ 2) * factor p fun x => t * K x) (𝓝[>] 0) (𝓝 (coulomb2d p)) := by
  have hk : keK p K = ∑ x, K x ^ 2 := by rw [keK, h2]; rfl
  have hs : 0 < Real.sqrt (keK p K) := by rw [hk]; exact Real.sqrt_pos.2 hK
  set k := Real.sqrt (keK p K) with hkd
  set r := polarizability p K
  have hkk : keK p K = k ^ 2 := (Real.sq_sqrt (by rw [hk]; exact hK.le)).symm
  have h0 : ∀ t : ℝ, 0 < t → Real.sqrt (keK p fun x => t * K x) = t * k := by
    intro t ht
    rw [keK_smul, Real.sqrt_mul (by positivity), Real.sqrt_sq ht.le]
  rw [← hk, ← hkd]
  cases hL : p.L with
  | none =>
    have e : (fun t : ℝ => coulomb2d p * Real.exp (-(t ^ 2 * k ^ 2) / scale p) * k / (k + t * r)) =ᶠ[𝓝[>] 0]
        fun t : ℝ => t * k * factor p fun x => t * K x := by
      filter_upwards [self_mem_nhdsWithin] with t ht
      have ht : 0 < t := ht
      unfold factor
      rw [h2, hL]
      simp only
      rw [h0 t ht, keK_smul, hkk, krK_eq, polarizability_smul, prefactor_2d p h2]
      show _ = t * k * (_ / (t * k + t ^ 2 * r))
      rw [show t * k + t ^ 2 * r = t * (k + t * r) by ring, ← div_div, ← mul_div_assoc, mul_div_assoc, div_eq_mul_inv, div_eq_mul_inv,
        div_eq_mul_inv]
      field_simp
    refine Tendsto.congr' e ?_
    have c : ContinuousAt (fun t : ℝ => coulomb2d p * Real.exp (-(t ^ 2 * k ^ 2) / scale p) * k / (k + t * r)) 0 := by
      apply ContinuousAt.div
      · fun_prop
      · fun_prop
      · simpa using hs.ne'
    have := c.tendsto
    simp only [ne_eq, OfNat.ofNat_ne_zero, not_false_eq_true, zero_pow, zero_mul, neg_zero, zero_div, Real.exp_zero, mul_one, add_zero,
      mul_div_cancel_right₀ _ hs.ne'] at this
    exact this.mono_left nhdsWithin_le_nhds
  | some l =>
    have e : (fun t : ℝ => coulomb2d p * (2 / (1 + Real.exp (t * k * l))) / (1 + 2 / (1 + Real.exp (t * k * l)) / k * t * r)) =ᶠ[𝓝[>] 0]
        fun t : ℝ => t * k * factor p fun x => t * K x := by
      filter_upwards [self_mem_nhdsWithin] with t ht
      have ht : 0 < t := ht
      unfold factor
      rw [h2, hL]
      simp only
      rw [tanhFactor_eq, h0 t ht, krK_eq, polarizability_smul, prefactor_2d p h2]
      generalize 2 / (1 + Real.exp (t * k * l)) = f
      have : f / (t * k) * (t ^ 2 * polarizability p K) = f / k * t * r := by
        show f / (t * k) * (t ^ 2 * r) = _
        field_simp
      rw [this]
      generalize 1 + f / k * t * r = d
      field_simp
    refine Tendsto.congr' e ?_
    have c : ContinuousAt (fun t : ℝ => coulomb2d p * (2 / (1 + Real.exp (t * k * l))) / (1 + 2 / (1 + Real.exp (t * k * l)) / k * t * r)) 0 := by
      have c1 : ContinuousAt (fun t : ℝ => 2 / (1 + Real.exp (t * k * l))) 0 := by
        apply ContinuousAt.div
        · fun_prop
        · fun_prop
        · positivity
      apply ContinuousAt.div
      · fun_prop
      · fun_prop
      · simp
    have := c.tendsto
    norm_num at this
    exact this.mono_left nhdsWithin_le_nhds

/-- **C131**: the same for the kernel of out-of-plane dipoles, which has the opposite sign. -/
theorem C131_limit_perp (p : Polar n) (h2 : p.lr2d = true) (l : ℝ) (K : Fin 3 → ℝ) (hK : 0 < ∑ x, K x ^ 2) :
    Tendsto (fun t : ℝ => t * Real.sqrt (∑ x, K x ^ 2) * factorPerp p l fun x => t * K x) (𝓝[>] 0) (𝓝 (-coulomb2d p)) := by
  have hk : keK p K = ∑ x, K x ^ 2 := by rw [keK, h2]; rfl
  have hs : 0 < Real.sqrt (keK p K) := by rw [hk]; exact Real.sqrt_pos.2 hK
  set k := Real.sqrt (keK p K) with hkd
  have h0 : ∀ t : ℝ, 0 < t → Real.sqrt (keK p fun x => t * K x) = t * k := by
    intro t ht
    rw [keK_smul, Real.sqrt_mul (by positivity), Real.sqrt_sq ht.le]
  rw [← hk, ← hkd]
  have e : (fun t : ℝ => -coulomb2d p * (2 / (1 + Real.exp (t * k * l))) / (1 - 2 / (1 + Real.exp (t * k * l)) * (t * k) * rEff p 2 2)) =ᶠ[𝓝[>] 0]
      fun t : ℝ => t * k * factorPerp p l fun x => t * K x := by
    filter_upwards [self_mem_nhdsWithin] with t ht
    have ht : 0 < t := ht
    unfold factorPerp
    rw [tanhFactor_eq, h0 t ht, prefactor_2d p h2]
    generalize 1 - 2 / (1 + Real.exp (t * k * l)) * (t * k) * rEff p 2 2 = d
    field_simp
  refine Tendsto.congr' e ?_
  have c : ContinuousAt (fun t : ℝ => -coulomb2d p * (2 / (1 + Real.exp (t * k * l))) /
      (1 - 2 / (1 + Real.exp (t * k * l)) * (t * k) * rEff p 2 2)) 0 := by
    have c1 : ContinuousAt (fun t : ℝ => 2 / (1 + Real.exp (t * k * l))) 0 := by
      apply ContinuousAt.div
      · fun_prop
      · fun_prop
      · positivity
    apply ContinuousAt.div
    · fun_prop
    · fun_prop
    · simp
  have := c.tendsto
  norm_num at this
  simp only [neg_mul]
  exact this.mono_left nhdsWithin_le_nhds

/-- **C131**: in three dimensions, the kernel approaches the Coulomb interaction screened by the dielectric tensor for small wave vectors,
whatever the value of `alpha`. -/
theorem C131_limit_3d (p : Polar n) (h2 : p.lr2d = false) (K : Fin 3 → ℝ) (hK : (∑ x, ∑ y, K x * p.eps x y * K y) ≠ 0) :
    Tendsto (fun t : ℝ => t ^ 2 * (∑ x, ∑ y, K x * p.eps x y * K y) * factor p fun x => t * K x) (𝓝[>] 0) (𝓝 (coulomb3d p)) := by
  have hk : keK p K = ∑ x, ∑ y, K x * p.eps x y * K y := by rw [keK, h2]; rfl
  rw [← hk] at hK ⊢
  have e : (fun t : ℝ => coulomb3d p * Real.exp (-(t ^ 2 * keK p K) / scale p)) =ᶠ[𝓝[>] 0]
      fun t : ℝ => t ^ 2 * keK p K * factor p fun x => t * K x := by
    filter_upwards [self_mem_nhdsWithin] with t ht
    have ht : 0 < t := ht
    unfold factor
    rw [h2]
    simp only
    rw [keK_smul, prefactor_3d p h2]
    field_simp
  refine Tendsto.congr' e ?_
  have c : ContinuousAt (fun t : ℝ => coulomb3d p * Real.exp (-(t ^ 2 * keK p K) / scale p)) 0 := by fun_prop
  have := c.tendsto
  norm_num at this
  exact this.mono_left nhdsWithin_le_nhds

/-! ### Examples -/

/-- A square lattice with lattice constants 2 and 10 and dielectric constant 3. -/
noncomputable def square (lr2d : Bool) (L : Option ℝ) : Polar 1 where
  a x y := if x = y then if x = 2 then 10 else 2 else 0
  b x y := if x = y then if x = 2 then 1 / 10 else 1 / 2 else 0
  r _ _ := 0
  eps x y := if x = y then 3 else 0
  Z _ x y := if x = y then 1 else 0
  Q := none
  M _ := 1
  lr2d := lr2d
  L := L
  perp := true
  divideMass := false
  alpha := 1

theorem fin3 : (0 : Fin 3) ≠ 1 ∧ (0 : Fin 3) ≠ 2 ∧ (1 : Fin 3) ≠ 2 ∧ (1 : Fin 3) ≠ 0 ∧ (2 : Fin 3) ≠ 0 ∧ (2 : Fin 3) ≠ 1 := by decide

theorem square_polarizability (lr2d : Bool) (L : Option ℝ) : polarizability (square lr2d L) (Pi.single 0 1) = 10 := by
  norm_num [polarizability, square]

theorem square_coulomb2d (L : Option ℝ) : coulomb2d (square true L) = Real.pi := by
  unfold coulomb2d square
  norm_num [fin3]
  rw [show (16 : ℝ) = 4 ^ 2 by norm_num, Real.sqrt_sq (by norm_num)]
  field_simp

theorem single_norm : ∑ x, (Pi.single 0 1 : Fin 3 → ℝ) x ^ 2 = 1 := by simp [Fin.sum_univ_three]

theorem single_smul (t : ℝ) : (fun x => t * (Pi.single 0 1 : Fin 3 → ℝ) x) = Pi.single 0 t := by
  funext x
  fin_cases x <;> simp

/-- The value for `|K| = 1` and `L = 4` lies between two exponentials. -/
example : Real.pi * Real.exp (-4) / (1 + Real.exp (-4) * 10) ≤ factor (square true (some 4)) (Pi.single 0 1) ∧
    factor (square true (some 4)) (Pi.single 0 1) ≤ Real.pi * (2 * Real.exp (-4)) / (1 + 2 * Real.exp (-4) * 10) := by
  have h := C131_decay (square true (some 4)) rfl 4 rfl (by norm_num) (Pi.single 0 1) (by rw [single_norm]; norm_num)
    (by rw [square_polarizability]; norm_num)
  rw [square_polarizability, square_coulomb2d, single_norm, Real.sqrt_one, one_mul] at h
  exact h

example (L : Option ℝ) : Tendsto (fun t : ℝ => t * factor (square true L) (Pi.single 0 t)) (𝓝[>] 0) (𝓝 Real.pi) := by
  have h := C131_limit_2d (square true L) rfl (Pi.single 0 1) (by rw [single_norm]; norm_num)
  simp only [square_coulomb2d, single_norm, single_smul, Real.sqrt_one, mul_one] at h
  exact h

example (l : ℝ) : Tendsto (fun t : ℝ => t * factorPerp (square true none) l (Pi.single 0 t)) (𝓝[>] 0) (𝓝 (-Real.pi)) := by
  have h := C131_limit_perp (square true none) rfl l (Pi.single 0 1) (by rw [single_norm]; norm_num)
  simp only [square_coulomb2d, single_norm, single_smul, Real.sqrt_one, mul_one] at h
  exact h

/-- For a dielectric constant of 3. -/
example : Tendsto (fun t : ℝ => t ^ 2 * 3 * factor (square false none) (Pi.single 0 t)) (𝓝[>] 0) (𝓝 (8 * Real.pi / 40)) := by
  have e : (∑ x, ∑ y, (Pi.single 0 1 : Fin 3 → ℝ) x * (square false none).eps x y * (Pi.single 0 1 : Fin 3 → ℝ) y) = 3 := by
    norm_num [Fin.sum_univ_three, square, Pi.single_apply, fin3]
  have h := C131_limit_3d (square false none) rfl (Pi.single 0 1) (by rw [e]; norm_num)
  have c : coulomb3d (square false none) = 8 * Real.pi / 40 := by norm_num [coulomb3d, square, fin3]
  simp only [e, c, single_smul] at h
  exact h

end Verif.Phon
