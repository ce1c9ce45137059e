import Verif.Phon.BornHuang
import Verif.Bands.Robust
import Verif.TB.Model
import Mathlib.Analysis.SpecialFunctions.Trigonometric.Bounds
import Mathlib.Analysis.Calculus.Deriv.MeanValue

/-!
# Property C184: acoustic phonons
-/

namespace Verif.Phon.Acoustic

open Matrix
open Verif.Voronoi (V3)
open Verif.Fourier (phase)
open Verif.TB (Blocks dynMat)
open Verif.Bands (Spectrum Eigenpairs OrthoCols lower lower_hermitian expectation norm_vec)
open Verif.Phon.BornHuang (cart moment moment_cell sum_minus)

variable {nR nat : ℕ}

/-! ### Model -/

/-- `elphmod/ph.py` 167: lattice vectors `R` and matrices `data` of a mass-spring model. -/
def model (Rint : Fin nR → V3) (data : Index nR nat → ℝ) : Blocks (Fin nat × Fin 3) ℝ :=
  List.ofFn fun n => (Rint n, fun i j => data (n, i, j))

/-- `elphmod/ph.py` 145-172 (`D`): the index `3 * na + x` belongs to atom `na` and direction `x`. Without long-range
terms. -/
noncomputable def D (Rint : Fin nR → V3) (data : Index nR nat → ℝ) (q : Fin 3 → ℝ) :
    Matrix (Fin (nat * 3)) (Fin (nat * 3)) ℂ :=
  Matrix.of fun a b => dynMat (model Rint data) q (finProdFinEquiv.symm a) (finProdFinEquiv.symm b)

/-! ### Specification -/

/-- Scalar product of lattice vector and wave vector. -/
noncomputable def angle (R : V3) (q : Fin 3 → ℝ) : ℝ := R.1 * q 0 + R.2.1 * q 1 + R.2.2 * q 2

/-- Force constants between whole unit cells. -/
def cell (C : Index nR nat → ℝ) (n : Fin nR) (x y : Fin 3) : ℝ := ∑ k, ∑ l, C (n, (k, x), (l, y))

/-- A quadratic form of the wave vector which depends on the force constants between unit cells and the mass of the
unit cell only. -/
noncomputable def stiffness (Rint : Fin nR → V3) (C : Index nR nat → ℝ) (M : Fin nat → ℝ) (q : Fin 3 → ℝ) : ℝ :=
  (∑ n, ∑ x, ∑ y, |cell C n x y| * angle (Rint n) q ^ 2) / ∑ k, M k

theorem stiffness_smul (Rint : Fin nR → V3) (C : Index nR nat → ℝ) (M : Fin nat → ℝ) (q : Fin 3 → ℝ) (t : ℝ) :
    stiffness Rint C M (fun i => t * q i) = t ^ 2 * stiffness Rint C M q := by
  unfold stiffness
  rw [mul_div_assoc', Finset.mul_sum]
  congr 1
  refine Finset.sum_congr rfl fun n _ => ?_
  rw [Finset.mul_sum]
  refine Finset.sum_congr rfl fun x _ => ?_
  rw [Finset.mul_sum]
  refine Finset.sum_congr rfl fun y _ => ?_
  unfold angle
  ring

/-! ### Min-max principle -/

theorem minmax {d p : ℕ} (A : Matrix (Fin d) (Fin d) ℂ) (v : Fin d → ℝ) (V : Fin d → Fin d → ℂ)
    (hv : Eigenpairs A (fun n => (v n : ℂ)) V) (hV : OrthoCols V) (mv : Monotone v) (Z : Matrix (Fin d) (Fin p) ℂ)
    (hZ : ∀ c, Z *ᵥ c = 0 → c = 0) {δ : ℝ}
    (h : ∀ c, (star (Z *ᵥ c) ⬝ᵥ (A *ᵥ (Z *ᵥ c))).re ≤ δ * ∑ a, ‖(Z *ᵥ c) a‖ ^ 2) (n : Fin d) (hn : n.1 < p) :
    v n ≤ δ := by
  have hUV : (Matrix.of V)ᴴ * Matrix.of V = 1 := by
    ext m n
    rw [Matrix.mul_apply, Matrix.one_apply]
    exact hV m n
  have hVU : Matrix.of V * (Matrix.of V)ᴴ = 1 := mul_eq_one_comm.1 hUV
  let L : (Fin p → ℂ) →ₗ[ℂ] (Fin n.1 → ℂ) :=
    { toFun := fun c m => (((Matrix.of V)ᴴ * Z) *ᵥ c) ⟨m.1, m.2.trans n.2⟩
      map_add' := fun c c' => by
        funext m
        rw [Matrix.mulVec_add]
        rfl
      map_smul' := fun r c => by
        funext m
        rw [Matrix.mulVec_smul]
        rfl }
  have hk : LinearMap.ker L ≠ ⊥ := LinearMap.ker_ne_bot_of_finrank_lt (by simpa using hn)
  obtain ⟨c, hc, hc0⟩ := (Submodule.ne_bot_iff _).1 hk
  rw [LinearMap.mem_ker] at hc
  set x := Z *ᵥ c with hx
  set y := (Matrix.of V)ᴴ *ᵥ x with hy
  have hlo : ∀ m, m < n → y m = 0 := by
    intro m hm
    have := congrFun hc ⟨m.1, hm⟩
    rw [hy, hx, Matrix.mulVec_mulVec]
    exact this
  have hxy : (Matrix.of V) *ᵥ y = x := by
    rw [hy, Matrix.mulVec_mulVec, hVU, Matrix.one_mulVec]
  have hA := expectation A v V hv hV y
  rw [hxy] at hA
  have ny : ∑ a, ‖x a‖ ^ 2 = ∑ n, ‖y n‖ ^ 2 := by
    rw [← hxy]
    exact norm_vec V hV y
  have hx0 : x ≠ 0 := fun h0 => hc0 (hZ c h0)
  have hpos : 0 < ∑ a, ‖x a‖ ^ 2 := by
    obtain ⟨m, hm⟩ := Function.ne_iff.1 hx0
    exact Finset.sum_pos' (fun _ _ => sq_nonneg _) ⟨m, Finset.mem_univ m, pow_pos (norm_pos_iff.2 hm) 2⟩
  have h1 : v n * ∑ a, ‖x a‖ ^ 2 ≤ ∑ m, v m * ‖y m‖ ^ 2 := by
    rw [ny, Finset.mul_sum]
    refine Finset.sum_le_sum fun m _ => ?_
    rcases lt_or_ge m n with hm | hm
    · rw [hlo m hm]
      simp
    · exact mul_le_mul_of_nonneg_right (mv hm) (sq_nonneg _)
  have h2 := h c
  rw [← hx, hA, Complex.ofReal_re] at h2
  exact le_of_mul_le_mul_right (h1.trans h2) hpos

/-! ### Dynamical matrix -/

theorem dynMat_model (Rint : Fin nR → V3) (data : Index nR nat → ℝ) (q : Fin 3 → ℝ) (i j : Fin nat × Fin 3) :
    dynMat (model Rint data) q i j = ∑ n, (data (n, i, j) : ℂ) * phase (Rint n) q := by
  unfold dynMat Verif.Fourier.bloch model
  rw [List.map_map, List.map_ofFn, List.sum_ofFn]
  rfl

theorem phase_angle (R : V3) (q : Fin 3 → ℝ) : phase R q = Complex.exp (Complex.I * (angle R q : ℂ)) := by
  unfold phase angle
  push_cast
  rfl

theorem star_exp (t : ℝ) : star (Complex.exp (Complex.I * (t : ℂ))) = Complex.exp (Complex.I * ((-t : ℝ) : ℂ)) := by
  rw [Complex.star_def, ← Complex.exp_conj]
  congr 1
  simp

theorem angle_neg (R : V3) (q : Fin 3 → ℝ) : angle (-R.1, -R.2.1, -R.2.2) q = -angle R q := by
  unfold angle
  push_cast
  ring

theorem data_reciprocal {Rint : Fin nR → V3} {data : Index nR nat → ℝ} {M : Fin nat → ℝ} (hM : ∀ a, 0 < M a)
    (hC : Reciprocal Rint (forceConstants true M data)) : Reciprocal Rint data := by
  intro n m hm i j
  have h := hC n m hm i j
  simp only [forceConstants, if_true] at h
  rw [mul_comm (Real.sqrt (M j.1))] at h
  exact mul_right_cancel₀ (mul_ne_zero (Real.sqrt_pos.2 (hM _)).ne' (Real.sqrt_pos.2 (hM _)).ne') h

theorem dynMat_hermitian {Rint : Fin nR → V3} (h : Symmetric Rint) {data : Index nR nat → ℝ}
    (hC : Reciprocal Rint data) (q : Fin 3 → ℝ) (i j : Fin nat × Fin 3) :
    star (dynMat (model Rint data) q j i) = dynMat (model Rint data) q i j := by
  rw [dynMat_model, dynMat_model, star_sum]
  refine Finset.sum_bij' (fun n _ => minusR Rint n) (fun n _ => minusR Rint n) (by simp) (by simp)
    (fun n _ => minusR_minusR h n) (fun n _ => minusR_minusR h n) fun n _ => ?_
  rw [star_mul', Complex.star_def, Complex.conj_ofReal, hC n _ (minusR_spec h n) j i, phase_angle, phase_angle,
    minusR_spec h, angle_neg, ← Complex.star_def, star_exp]

theorem D_hermitian {Rint : Fin nR → V3} (h : Symmetric Rint) {data : Index nR nat → ℝ}
    (hC : Reciprocal Rint data) (q : Fin 3 → ℝ) (a b : Fin (nat * 3)) :
    star (D Rint data q b a) = D Rint data q a b := dynMat_hermitian h hC q _ _

/-- Uniform displacements. -/
noncomputable def uniform (M : Fin nat → ℝ) : Matrix (Fin (nat * 3)) (Fin 3) ℂ :=
  Matrix.of fun a x => if (finProdFinEquiv.symm a).2 = x then (Real.sqrt (M (finProdFinEquiv.symm a).1) : ℂ) else 0

theorem uniform_apply (M : Fin nat → ℝ) (u : Fin 3 → ℂ) (i : Fin nat × Fin 3) :
    (uniform M *ᵥ u) (finProdFinEquiv i) = (Real.sqrt (M i.1) : ℂ) * u i.2 := by
  simp only [Matrix.mulVec, dotProduct, uniform, Matrix.of_apply, Equiv.symm_apply_apply, ite_mul, zero_mul]
  rw [Finset.sum_ite_eq Finset.univ i.2, if_pos (Finset.mem_univ _)]

theorem uniform_injective (hn : 0 < nat) {M : Fin nat → ℝ} (hM : ∀ a, 0 < M a) (u : Fin 3 → ℂ)
    (h : uniform M *ᵥ u = 0) : u = 0 := by
  funext x
  have := congrFun h (finProdFinEquiv (⟨0, hn⟩, x))
  rw [uniform_apply] at this
  refine (mul_eq_zero.1 this).resolve_left ?_
  exact_mod_cast (Real.sqrt_pos.2 (hM ⟨0, hn⟩)).ne'

theorem uniform_norm {M : Fin nat → ℝ} (hM : ∀ a, 0 < M a) (u : Fin 3 → ℂ) :
    ∑ a, ‖(uniform M *ᵥ u) a‖ ^ 2 = (∑ k, M k) * ∑ x, ‖u x‖ ^ 2 := by
  rw [← Equiv.sum_comp finProdFinEquiv, Fintype.sum_prod_type, Finset.sum_mul]
  refine Finset.sum_congr rfl fun k _ => ?_
  rw [Finset.mul_sum]
  refine Finset.sum_congr rfl fun x _ => ?_
  rw [uniform_apply, norm_mul, mul_pow, Complex.norm_real, Real.norm_eq_abs, sq_abs, Real.sq_sqrt (hM k).le]

theorem uniform_form (Rint : Fin nR → V3) (data : Index nR nat → ℝ) (M : Fin nat → ℝ) (q : Fin 3 → ℝ)
    (u : Fin 3 → ℂ) :
    star (uniform M *ᵥ u) ⬝ᵥ (D Rint data q *ᵥ (uniform M *ᵥ u)) =
      ∑ n, ∑ x, ∑ y, star (u x) * u y * ((cell (forceConstants true M data) n x y : ℝ) : ℂ) * phase (Rint n) q := by
  simp only [dotProduct, Matrix.mulVec]
  rw [← Equiv.sum_comp finProdFinEquiv]
  have e : ∀ i : Fin nat × Fin 3, star (uniform M *ᵥ u) (finProdFinEquiv i) *
      ∑ b, D Rint data q (finProdFinEquiv i) b * (uniform M *ᵥ u) b =
      ∑ n, ∑ j : Fin nat × Fin 3, star (u i.2) * u j.2 * ((forceConstants true M data (n, i, j) : ℝ) : ℂ) *
        phase (Rint n) q := by
    intro i
    rw [← Equiv.sum_comp finProdFinEquiv, Finset.sum_comm, Finset.mul_sum]
    refine Finset.sum_congr rfl fun j _ => ?_
    rw [Pi.star_apply, uniform_apply, uniform_apply]
    simp only [D, Matrix.of_apply, Equiv.symm_apply_apply]
    rw [dynMat_model, Finset.sum_mul, Finset.mul_sum]
    refine Finset.sum_congr rfl fun n _ => ?_
    simp only [forceConstants, if_true, star_mul', Complex.star_def, Complex.conj_ofReal]
    push_cast
    ring
  have e' : ∑ i : Fin nat × Fin 3, star (uniform M *ᵥ u) (finProdFinEquiv i) *
      ∑ b, D Rint data q (finProdFinEquiv i) b * (uniform M *ᵥ u) b =
      ∑ n, ∑ x, ∑ y, star (u x) * u y * ((cell (forceConstants true M data) n x y : ℝ) : ℂ) * phase (Rint n) q := by
    simp only [e]
    rw [Finset.sum_comm]
    refine Finset.sum_congr rfl fun n _ => ?_
    rw [Fintype.sum_prod_type_right]
    refine Finset.sum_congr rfl fun x _ => ?_
    have e1 : ∀ k, ∑ j : Fin nat × Fin 3, star (u x) * u j.2 *
        ((forceConstants true M data (n, (k, x), j) : ℝ) : ℂ) * phase (Rint n) q =
        ∑ y, ∑ l, star (u x) * u y * ((forceConstants true M data (n, (k, x), (l, y)) : ℝ) : ℂ) *
          phase (Rint n) q := fun k => Fintype.sum_prod_type_right _
    simp only [e1]
    rw [Finset.sum_comm]
    refine Finset.sum_congr rfl fun y _ => ?_
    unfold cell
    push_cast
    rw [Finset.mul_sum, Finset.sum_mul]
    refine Finset.sum_congr rfl fun k _ => ?_
    rw [Finset.mul_sum, Finset.sum_mul]
  exact e'

theorem form_bound (c : Fin nR → Fin 3 → Fin 3 → ℝ) (w : Fin nR → ℂ) (b : Fin nR → ℝ) (h : ∀ n, ‖w n‖ ≤ b n)
    (u : Fin 3 → ℂ) :
    ‖∑ n, ∑ x, ∑ y, star (u x) * u y * (c n x y : ℂ) * w n‖ ≤
      (∑ n, ∑ x, ∑ y, |c n x y| * b n) * ∑ x, ‖u x‖ ^ 2 := by
  have hu : ∀ x y, ‖u x‖ * ‖u y‖ ≤ ∑ x, ‖u x‖ ^ 2 := by
    intro x y
    have h1 : ‖u x‖ ^ 2 ≤ ∑ x, ‖u x‖ ^ 2 :=
      Finset.single_le_sum (f := fun x => ‖u x‖ ^ 2) (fun _ _ => sq_nonneg _) (Finset.mem_univ x)
    have h2 : ‖u y‖ ^ 2 ≤ ∑ x, ‖u x‖ ^ 2 :=
      Finset.single_le_sum (f := fun x => ‖u x‖ ^ 2) (fun _ _ => sq_nonneg _) (Finset.mem_univ y)
    nlinarith [sq_nonneg (‖u x‖ - ‖u y‖)]
  rw [Finset.sum_mul]
  refine (norm_sum_le _ _).trans (Finset.sum_le_sum fun n _ => ?_)
  rw [Finset.sum_mul]
  refine (norm_sum_le _ _).trans (Finset.sum_le_sum fun x _ => ?_)
  rw [Finset.sum_mul]
  refine (norm_sum_le _ _).trans (Finset.sum_le_sum fun y _ => ?_)
  rw [norm_mul, norm_mul, norm_mul, norm_star, Complex.norm_real, Real.norm_eq_abs]
  have hb : 0 ≤ b n := (norm_nonneg _).trans (h n)
  calc ‖u x‖ * ‖u y‖ * |c n x y| * ‖w n‖ ≤ (∑ x, ‖u x‖ ^ 2) * |c n x y| * b n := by
        refine mul_le_mul (mul_le_mul_of_nonneg_right (hu x y) (abs_nonneg _)) (h n) (norm_nonneg _) ?_
        exact mul_nonneg (Finset.sum_nonneg fun _ _ => sq_nonneg _) (abs_nonneg _)
    _ = _ := by ring

/-! ### Bounds of phase factors -/

theorem exp_bound (t : ℝ) : ‖Complex.exp (Complex.I * (t : ℂ)) - 1 - Complex.I * t‖ ≤ t ^ 2 / 2 := by
  have hd : ∀ s : ℝ, HasDerivAt (fun s : ℝ => s ^ 4 / 4 - s ^ 2 - 2 + 2 * Real.cos s + 2 * (s * Real.sin s))
      (s ^ 3 - 2 * (s * (1 - Real.cos s))) s := by
    intro s
    have h1 := (((hasDerivAt_pow 4 s).div_const 4).sub (hasDerivAt_pow 2 s)).sub_const 2
    have h2 := (Real.hasDerivAt_cos s).const_mul 2
    have h3 := ((hasDerivAt_id s).mul (Real.hasDerivAt_sin s)).const_mul 2
    have h4 := (h1.add h2).add h3
    refine (h4.congr_deriv ?_)
    simp
    ring
  have hm : MonotoneOn (fun s : ℝ => s ^ 4 / 4 - s ^ 2 - 2 + 2 * Real.cos s + 2 * (s * Real.sin s)) (Set.Ici 0) := by
    refine monotoneOn_of_deriv_nonneg (convex_Ici 0) ?_ ?_ ?_
    · exact fun s _ => (hd s).continuousAt.continuousWithinAt
    · exact fun s _ => (hd s).differentiableAt.differentiableWithinAt
    · intro s hs
      rw [interior_Ici, Set.mem_Ioi] at hs
      rw [(hd s).deriv]
      have hc := Real.one_sub_sq_div_two_le_cos (x := s)
      nlinarith [mul_le_mul_of_nonneg_left (show 1 - Real.cos s ≤ s ^ 2 / 2 by linarith) hs.le]
  have hp : ∀ s : ℝ, 0 ≤ s → 0 ≤ s ^ 4 / 4 - s ^ 2 - 2 + 2 * Real.cos s + 2 * (s * Real.sin s) := by
    intro s hs
    have := hm (Set.mem_Ici.2 le_rfl) (Set.mem_Ici.2 hs) hs
    simpa using this
  have ht : 0 ≤ t ^ 4 / 4 - t ^ 2 - 2 + 2 * Real.cos t + 2 * (t * Real.sin t) := by
    rcases le_total 0 t with h | h
    · exact hp t h
    · have := hp (-t) (by linarith)
      rw [Real.cos_neg, Real.sin_neg] at this
      nlinarith
  have hn : ‖Complex.exp (Complex.I * (t : ℂ)) - 1 - Complex.I * t‖ ^ 2 =
      (Real.cos t - 1) ^ 2 + (Real.sin t - t) ^ 2 := by
    rw [mul_comm, Complex.exp_mul_I, ← Complex.normSq_eq_norm_sq, Complex.normSq_apply]
    simp [Complex.cos_ofReal_re, Complex.sin_ofReal_re, Complex.cos_ofReal_im, Complex.sin_ofReal_im]
    ring
  refine abs_le_of_sq_le_sq' ?_ (by positivity) |>.2
  rw [hn]
  nlinarith [Real.sin_sq_add_cos_sq t]

theorem cos_bound (t : ℝ) :
    ‖(Complex.exp (Complex.I * (t : ℂ)) + Complex.exp (Complex.I * ((-t : ℝ) : ℂ)) - 2 : ℂ)‖ ≤ t ^ 2 := by
  have e : (Complex.exp (Complex.I * (t : ℂ)) + Complex.exp (Complex.I * ((-t : ℝ) : ℂ)) - 2 : ℂ) =
      ((2 * (Real.cos t - 1) : ℝ) : ℂ) := by
    have h1 : Complex.exp (Complex.I * (t : ℂ)) = Complex.cos t + Complex.sin t * Complex.I := by
      rw [mul_comm, Complex.exp_mul_I]
    have h2 : Complex.exp (Complex.I * ((-t : ℝ) : ℂ)) = Complex.cos t - Complex.sin t * Complex.I := by
      rw [mul_comm, Complex.exp_mul_I]
      push_cast
      rw [Complex.cos_neg, Complex.sin_neg]
      ring
    rw [h1, h2]
    push_cast
    ring
  rw [e, Complex.norm_real, Real.norm_eq_abs, abs_le]
  have h1 := Real.one_sub_sq_div_two_le_cos (x := t)
  have h2 := Real.cos_le_one t
  constructor <;> nlinarith [sq_nonneg t]

/-! ### Theorems -/

section

variable {Rint : Fin nR → V3} {data : Index nR nat → ℝ} {M : Fin nat → ℝ}

theorem cell_sum {C : Index nR nat → ℝ} (hasr : ∀ k x y, ∑ n, ∑ l, C (n, (k, x), (l, y)) = 0) (x y : Fin 3) :
    ∑ n, cell C n x y = 0 := by
  unfold cell
  rw [Finset.sum_comm]
  exact Finset.sum_eq_zero fun k _ => hasr k x y

/-- Constants do not contribute. -/
theorem form_shift (c : Fin nR → Fin 3 → Fin 3 → ℝ) (hc : ∀ x y, ∑ n, c n x y = 0) (w : Fin nR → ℂ) (s : ℂ)
    (u : Fin 3 → ℂ) :
    ∑ n, ∑ x, ∑ y, star (u x) * u y * (c n x y : ℂ) * w n =
      ∑ n, ∑ x, ∑ y, star (u x) * u y * (c n x y : ℂ) * (w n - s) := by
  have h0 : ∑ n, ∑ x, ∑ y, star (u x) * u y * (c n x y : ℂ) * s = 0 := by
    rw [Finset.sum_comm]
    refine Finset.sum_eq_zero fun x _ => ?_
    rw [Finset.sum_comm]
    refine Finset.sum_eq_zero fun y _ => ?_
    rw [← Finset.sum_mul, ← Finset.mul_sum]
    have := hc x y
    have h1 : ∑ n, (c n x y : ℂ) = 0 := by exact_mod_cast this
    rw [h1]
    simp
  simp only [mul_sub, Finset.sum_sub_distrib]
  rw [h0, sub_zero]

theorem spectrum_form {q : Fin 3 → ℝ} {v : Fin (nat * 3) → ℝ} (h : Symmetric Rint) (hC : Reciprocal Rint data)
    (hv : Spectrum (D Rint data q) v) :
    Monotone v ∧ ∃ V, Eigenpairs (D Rint data q) (fun n => (v n : ℂ)) V ∧ OrthoCols V := by
  obtain ⟨mv, V, ev, hV⟩ := hv
  rw [lower_hermitian _ (D_hermitian h hC q)] at ev
  exact ⟨mv, V, ev, hV⟩

/-- Upper bound of the three lowest eigenvalues. -/
theorem lowest (h : Symmetric Rint) (hn : 0 < nat) (hM : ∀ a, 0 < M a)
    (hC : Reciprocal Rint (forceConstants true M data)) {q : Fin 3 → ℝ} {v : Fin (nat * 3) → ℝ}
    (hv : Spectrum (D Rint data q) v) {δ : ℝ}
    (hb : ∀ u : Fin 3 → ℂ, (star (uniform M *ᵥ u) ⬝ᵥ (D Rint data q *ᵥ (uniform M *ᵥ u))).re ≤
      δ * ∑ x, ‖u x‖ ^ 2) (n : Fin (nat * 3)) (h3 : n.1 < 3) : v n ≤ δ / ∑ k, M k := by
  obtain ⟨mv, V, ev, hV⟩ := spectrum_form h (data_reciprocal hM hC) hv
  have hpos : 0 < ∑ k, M k := Finset.sum_pos (fun k _ => hM k) ⟨⟨0, hn⟩, Finset.mem_univ _⟩
  refine minmax _ v V ev hV mv (uniform M) (uniform_injective hn hM) (fun u => ?_) n h3
  rw [uniform_norm hM]
  refine (hb u).trans (le_of_eq ?_)
  field_simp

/-- **C184**: if the crystal is stable at a wave vector, the squared frequencies of the three lowest phonons are bounded
by a quadratic form of the wave vector. -/
theorem C184_stable (h : Symmetric Rint) (hn : 0 < nat) (hM : ∀ a, 0 < M a)
    (hC : Reciprocal Rint (forceConstants true M data))
    (hasr : ∀ k x y, ∑ n, ∑ l, forceConstants true M data (n, (k, x), (l, y)) = 0) (q : Fin 3 → ℝ)
    (v : Fin (nat * 3) → ℝ) (hv : Spectrum (D Rint data q) v) (hs : ∀ n, 0 ≤ v n) (n : Fin (nat * 3))
    (h3 : n.1 < 3) : v n ≤ stiffness Rint (forceConstants true M data) M q := by
  refine lowest h hn hM hC hv (fun u => ?_) n h3
  obtain ⟨mv, V, ev, hV⟩ := spectrum_form h (data_reciprocal hM hC) hv
  have hUV : (Matrix.of V)ᴴ * Matrix.of V = 1 := by
    ext m n
    rw [Matrix.mul_apply, Matrix.one_apply]
    exact hV m n
  have hVU : Matrix.of V * (Matrix.of V)ᴴ = 1 := mul_eq_one_comm.1 hUV
  have hpos : ∀ z : Fin (nat * 3) → ℂ, 0 ≤ (star z ⬝ᵥ (D Rint data q *ᵥ z)).re := by
    intro z
    have he := expectation (D Rint data q) v V ev hV ((Matrix.of V)ᴴ *ᵥ z)
    rw [Matrix.mulVec_mulVec (M := Matrix.of V), hVU, Matrix.one_mulVec] at he
    rw [he, Complex.ofReal_re]
    exact Finset.sum_nonneg fun n _ => mul_nonneg (hs n) (sq_nonneg _)
  have e1 := uniform_form Rint data M q u
  have e2 := uniform_form Rint data M q (star u)
  have p2 := hpos (uniform M *ᵥ star u)
  rw [e2] at p2
  rw [e1]
  have e3 : ∀ n x y, star (star (star u x) * star u y * ((cell (forceConstants true M data) n x y : ℝ) : ℂ) *
      phase (Rint n) q) = star (u x) * u y * ((cell (forceConstants true M data) n x y : ℝ) : ℂ) *
        Complex.exp (Complex.I * ((-angle (Rint n) q : ℝ) : ℂ)) := by
    intro n x y
    rw [phase_angle]
    have hr : star ((cell (forceConstants true M data) n x y : ℝ) : ℂ) =
        ((cell (forceConstants true M data) n x y : ℝ) : ℂ) := Complex.conj_ofReal _
    simp only [star_mul', star_star, Pi.star_apply, star_exp, hr]
  have e4 : (∑ n, ∑ x, ∑ y, star (star u x) * star u y * ((cell (forceConstants true M data) n x y : ℝ) : ℂ) *
      phase (Rint n) q).re = (∑ n, ∑ x, ∑ y, star (u x) * u y *
        ((cell (forceConstants true M data) n x y : ℝ) : ℂ) *
          Complex.exp (Complex.I * ((-angle (Rint n) q : ℝ) : ℂ))).re := by
    rw [← Complex.conj_re, ← Complex.star_def, star_sum]
    simp only [star_sum, e3]
  rw [e4] at p2
  have hb := form_bound (cell (forceConstants true M data))
    (fun n => phase (Rint n) q + Complex.exp (Complex.I * ((-angle (Rint n) q : ℝ) : ℂ)) - 2)
    (fun n => angle (Rint n) q ^ 2) (fun n => by rw [phase_angle]; exact cos_bound _) u
  rw [← form_shift _ (cell_sum hasr) (fun n => phase (Rint n) q +
    Complex.exp (Complex.I * ((-angle (Rint n) q : ℝ) : ℂ))) 2 u] at hb
  have e5 : ∑ n, ∑ x, ∑ y, star (u x) * u y * ((cell (forceConstants true M data) n x y : ℝ) : ℂ) *
      (phase (Rint n) q + Complex.exp (Complex.I * ((-angle (Rint n) q : ℝ) : ℂ))) =
      (∑ n, ∑ x, ∑ y, star (u x) * u y * ((cell (forceConstants true M data) n x y : ℝ) : ℂ) * phase (Rint n) q) +
      ∑ n, ∑ x, ∑ y, star (u x) * u y * ((cell (forceConstants true M data) n x y : ℝ) : ℂ) *
        Complex.exp (Complex.I * ((-angle (Rint n) q : ℝ) : ℂ)) := by
    simp only [mul_add, Finset.sum_add_distrib]
  rw [e5] at hb
  have hre := (Complex.re_le_norm _).trans hb
  rw [Complex.add_re] at hre
  linarith

/-- **C184**: frequencies as returned by the code increase at most linearly with the distance from the center of the
Brillouin zone. -/
theorem C184_sound (h : Symmetric Rint) (hn : 0 < nat) (hM : ∀ a, 0 < M a)
    (hC : Reciprocal Rint (forceConstants true M data))
    (hasr : ∀ k x y, ∑ n, ∑ l, forceConstants true M data (n, (k, x), (l, y)) = 0) (q : Fin 3 → ℝ) (t : ℝ)
    (v : Fin (nat * 3) → ℝ) (hv : Spectrum (D Rint data fun i => t * q i) v) (hs : ∀ n, 0 ≤ v n)
    (n : Fin (nat * 3)) (h3 : n.1 < 3) :
    sgnsqrt (v n) ≤ |t| * Real.sqrt (stiffness Rint (forceConstants true M data) M q) := by
  have hb := C184_stable h hn hM hC hasr _ v hv hs n h3
  rw [stiffness_smul] at hb
  have e : sgnsqrt (v n) = Real.sqrt (v n) := by
    unfold sgnsqrt
    rcases (hs n).eq_or_lt with h0 | h0
    · rw [← h0]
      simp
    · rw [sign_pos h0, abs_of_pos h0]
      simp
  rw [e, ← Real.sqrt_sq_eq_abs, ← Real.sqrt_mul (sq_nonneg t)]
  exact Real.sqrt_le_sqrt hb

/-- **C184**: with the rotation sum rule of the code, the bound holds without stability, with half the constant. `Q` is
the wave vector in Cartesian coordinates. -/
theorem C184_rotation (h : Symmetric Rint) (hn : 0 < nat) (hM : ∀ a, 0 < M a) (a : Fin 3 → Fin 3 → ℝ)
    (r : Fin nat → Fin 3 → ℝ) (hC : Reciprocal Rint (forceConstants true M data))
    (hasr : ∀ k x y, ∑ n, ∑ l, forceConstants true M data (n, (k, x), (l, y)) = 0)
    (hrsr : ∀ k x1 x2 y, ∑ n, ∑ l,
      (forceConstants true M data (n, (k, x1), (l, y)) * (cart a (Rint n) x2 + r l x2) -
        forceConstants true M data (n, (k, x2), (l, y)) * (cart a (Rint n) x1 + r l x1)) = 0) (q Q : Fin 3 → ℝ)
    (hq : ∀ i, q i = ∑ x, a i x * Q x) (v : Fin (nat * 3) → ℝ) (hv : Spectrum (D Rint data q) v)
    (n : Fin (nat * 3)) (h3 : n.1 < 3) : v n ≤ stiffness Rint (forceConstants true M data) M q / 2 := by
  have hlin : ∀ x y, ∑ n, cell (forceConstants true M data) n x y * angle (Rint n) q = 0 := by
    intro x y
    have ha : ∀ n, angle (Rint n) q = ∑ z, cart a (Rint n) z * Q z := by
      intro n
      unfold angle cart
      rw [hq, hq, hq]
      simp only [Fin.sum_univ_three]
      ring
    have hz : ∀ z, ∑ n, cell (forceConstants true M data) n x y * cart a (Rint n) z = 0 := by
      intro z
      have hm := moment_cell h r hC hasr hrsr x y z
      rw [← hm]
      unfold moment cell
      have e1 : ∀ k, ∑ n, ∑ l, forceConstants true M data (n, (k, x), (l, y)) * (cart a (Rint n) z + r l z) =
          (∑ n, ∑ l, forceConstants true M data (n, (k, x), (l, y)) * cart a (Rint n) z) +
          ∑ n, ∑ l, forceConstants true M data (n, (k, x), (l, y)) * r l z := by
        intro k
        simp only [mul_add, Finset.sum_add_distrib]
      simp only [e1]
      rw [Finset.sum_add_distrib]
      have e2 : ∑ k, ∑ n, ∑ l, forceConstants true M data (n, (k, x), (l, y)) * r l z = 0 := by
        have e3 : ∑ k, ∑ n, ∑ l, forceConstants true M data (n, (k, x), (l, y)) * r l z =
            ∑ l, (∑ n, ∑ k, forceConstants true M data (n, (l, y), (k, x))) * r l z := by
          rw [Finset.sum_comm]
          simp only [Finset.sum_mul]
          rw [Finset.sum_comm (s := Finset.univ (α := Fin nat))]
          rw [← sum_minus h]
          refine Finset.sum_congr rfl fun n _ => ?_
          rw [Finset.sum_comm]
          refine Finset.sum_congr rfl fun l _ => Finset.sum_congr rfl fun k _ => ?_
          rw [← hC n _ (minusR_spec h n)]
        rw [e3]
        exact Finset.sum_eq_zero fun l _ => by rw [hasr, zero_mul]
      rw [e2, add_zero, Finset.sum_comm]
      refine Finset.sum_congr rfl fun n _ => ?_
      simp only [Finset.sum_mul]
    simp only [ha, Finset.mul_sum]
    rw [Finset.sum_comm]
    refine Finset.sum_eq_zero fun z _ => ?_
    have := hz z
    calc _ = (∑ n, cell (forceConstants true M data) n x y * cart a (Rint n) z) * Q z := by
          rw [Finset.sum_mul]
          exact Finset.sum_congr rfl fun n _ => by ring
      _ = 0 := by rw [this, zero_mul]
  have e : stiffness Rint (forceConstants true M data) M q / 2 =
      (∑ n, ∑ x, ∑ y, |cell (forceConstants true M data) n x y| * (angle (Rint n) q ^ 2 / 2)) / ∑ k, M k := by
    unfold stiffness
    rw [div_right_comm]
    congr 1
    simp only [Finset.sum_div, mul_div_assoc]
  rw [e]
  refine lowest h hn hM hC hv (fun u => ?_) n h3
  rw [uniform_form, form_shift _ (cell_sum hasr) (fun n => phase (Rint n) q) 1 u]
  have hb := form_bound (cell (forceConstants true M data))
    (fun n => phase (Rint n) q - 1 - Complex.I * (angle (Rint n) q : ℂ))
    (fun n => angle (Rint n) q ^ 2 / 2) (fun n => by rw [phase_angle]; exact exp_bound _) u
  have e0 : ∑ n, ∑ x, ∑ y, star (u x) * u y * ((cell (forceConstants true M data) n x y : ℝ) : ℂ) *
      (Complex.I * (angle (Rint n) q : ℂ)) = 0 := by
    rw [Finset.sum_comm]
    refine Finset.sum_eq_zero fun x _ => ?_
    rw [Finset.sum_comm]
    refine Finset.sum_eq_zero fun y _ => ?_
    have h0 : ∑ n, ((cell (forceConstants true M data) n x y : ℝ) : ℂ) * (angle (Rint n) q : ℂ) = 0 := by
      exact_mod_cast hlin x y
    calc _ = star (u x) * u y * Complex.I *
          ∑ n, ((cell (forceConstants true M data) n x y : ℝ) : ℂ) * (angle (Rint n) q : ℂ) := by
          rw [Finset.mul_sum]
          exact Finset.sum_congr rfl fun n _ => by ring
      _ = 0 := by rw [h0, mul_zero]
  have e1 : ∑ n, ∑ x, ∑ y, star (u x) * u y * ((cell (forceConstants true M data) n x y : ℝ) : ℂ) *
      (phase (Rint n) q - 1) = ∑ n, ∑ x, ∑ y, star (u x) * u y *
        ((cell (forceConstants true M data) n x y : ℝ) : ℂ) *
          (phase (Rint n) q - 1 - Complex.I * (angle (Rint n) q : ℂ)) := by
    simp only [mul_sub _ _ (Complex.I * _), Finset.sum_sub_distrib]
    rw [e0, sub_zero]
  rw [e1]
  exact (Complex.re_le_norm _).trans hb

end

/-- **C184**: the three lowest squared frequencies after `sum_rule_correction`. -/
theorem C184_corrected (Rint : Fin nR → V3) (h : Symmetric Rint) (hn : 0 < nat) (a : Fin 3 → Fin 3 → ℝ)
    (r : Fin nat → Fin 3 → ℝ) (M : Fin nat → ℝ) (hM : ∀ a, 0 < M a) (data : Index nR nat → ℝ)
    (hC : Reciprocal Rint (forceConstants true M data)) (q Q : Fin 3 → ℝ) (hq : ∀ i, q i = ∑ x, a i x * Q x)
    (v : Fin (nat * 3) → ℝ)
    (hv : Spectrum (D Rint (sumRuleCorrection true true 0 Rint (fun n => cart a (Rint n)) r true M data) q) v)
    (n : Fin (nat * 3)) (h3 : n.1 < 3) :
    v n ≤ stiffness Rint (forceConstants true M
      (sumRuleCorrection true true 0 Rint (fun n => cart a (Rint n)) r true M data)) M q / 2 := by
  have hr := C74_reciprocal true true 0 Rint h (fun n => cart a (Rint n)) r true M hM data hC
  have h1 := C74_acoustic true le_rfl Rint h (fun n => cart a (Rint n)) r true M hM data hC
  have h2 := C74_rotation true le_rfl Rint h (fun n => cart a (Rint n)) r true M hM data hC
  simp only [zero_div, zero_mul] at h1 h2
  exact C184_rotation h hn hM a r hr
    (fun k x y => pow_eq_zero_iff two_ne_zero |>.1 (le_antisymm (h1 k x y) (sq_nonneg _)))
    (fun k x1 x2 y => pow_eq_zero_iff two_ne_zero |>.1 (le_antisymm (h2 k x1 x2 y) (sq_nonneg _))) q Q hq v hv n h3

theorem D_zero_uniform {Rint : Fin nR → V3} {data : Index nR nat → ℝ} {M : Fin nat → ℝ} (hM : ∀ a, 0 < M a)
    (hasr : ∀ k x y, ∑ n, ∑ l, forceConstants true M data (n, (k, x), (l, y)) = 0) (u : Fin 3 → ℂ) :
    D Rint data 0 *ᵥ (uniform M *ᵥ u) = 0 := by
  funext b
  obtain ⟨i, rfl⟩ := finProdFinEquiv.surjective b
  have hs : (Real.sqrt (M i.1) : ℂ) ≠ 0 := by exact_mod_cast (Real.sqrt_pos.2 (hM i.1)).ne'
  refine (mul_eq_zero.1 (?_ : (Real.sqrt (M i.1) : ℂ) * _ = 0)).resolve_left hs
  have e : (D Rint data 0 *ᵥ (uniform M *ᵥ u)) (finProdFinEquiv i) =
      ∑ j : Fin nat × Fin 3, D Rint data 0 (finProdFinEquiv i) (finProdFinEquiv j) *
        (uniform M *ᵥ u) (finProdFinEquiv j) := (Equiv.sum_comp finProdFinEquiv _).symm
  rw [e, Finset.mul_sum, Fintype.sum_prod_type_right]
  refine Finset.sum_eq_zero fun y _ => ?_
  have h0 : ∑ l, ∑ n, ((forceConstants true M data (n, (i.1, i.2), (l, y)) : ℝ) : ℂ) = 0 := by
    rw [Finset.sum_comm]
    exact_mod_cast hasr i.1 i.2 y
  calc _ = (∑ l, ∑ n, ((forceConstants true M data (n, (i.1, i.2), (l, y)) : ℝ) : ℂ)) * u y := by
        rw [Finset.sum_mul]
        refine Finset.sum_congr rfl fun l _ => ?_
        rw [uniform_apply]
        simp only [D, Matrix.of_apply, Equiv.symm_apply_apply]
        rw [dynMat_model, Finset.sum_mul, Finset.sum_mul, Finset.mul_sum]
        refine Finset.sum_congr rfl fun n _ => ?_
        simp only [forceConstants, if_true, phase, Pi.zero_apply, Complex.ofReal_zero, mul_zero, add_zero,
          Complex.exp_zero]
        push_cast
        ring
    _ = 0 := by rw [h0, zero_mul]

open Classical in
/-- **C184**: at the center of the Brillouin zone, at least three frequencies are zero. -/
theorem C184_gamma {Rint : Fin nR → V3} {data : Index nR nat → ℝ} {M : Fin nat → ℝ} (h : Symmetric Rint)
    (hn : 0 < nat) (hM : ∀ a, 0 < M a) (hC : Reciprocal Rint (forceConstants true M data))
    (hasr : ∀ k x y, ∑ n, ∑ l, forceConstants true M data (n, (k, x), (l, y)) = 0) (v : Fin (nat * 3) → ℝ)
    (hv : Spectrum (D Rint data 0) v) : 3 ≤ (Finset.univ.filter fun n => sgnsqrt (v n) = 0).card := by
  have hsg : ∀ n, sgnsqrt (v n) = 0 ↔ v n = 0 := by
    intro n
    unfold sgnsqrt
    rw [mul_eq_zero, Real.sqrt_eq_zero (abs_nonneg _), abs_eq_zero]
    constructor
    · rintro (h0 | h0)
      · rcases lt_trichotomy (v n) 0 with h1 | h1 | h1
        · rw [sign_neg h1] at h0
          simp at h0
        · exact h1
        · rw [sign_pos h1] at h0
          simp at h0
      · exact h0
    · exact fun h0 => Or.inr h0
  simp only [hsg]
  obtain ⟨mv, V, ev, hV⟩ := spectrum_form h (data_reciprocal hM hC) hv
  have hUV : (Matrix.of V)ᴴ * Matrix.of V = 1 := by
    ext m n
    rw [Matrix.mul_apply, Matrix.one_apply]
    exact hV m n
  have hVU : Matrix.of V * (Matrix.of V)ᴴ = 1 := mul_eq_one_comm.1 hUV
  have hA : D Rint data 0 * Matrix.of V = Matrix.of V * Matrix.diagonal fun n => (v n : ℂ) := by
    ext x n
    rw [Matrix.mul_apply, Matrix.mul_diagonal]
    exact (ev n x).trans (mul_comm _ _)
  have hB : (Matrix.of V)ᴴ * D Rint data 0 = (Matrix.diagonal fun n => (v n : ℂ)) * (Matrix.of V)ᴴ := by
    calc (Matrix.of V)ᴴ * D Rint data 0 = (Matrix.of V)ᴴ * (D Rint data 0 * Matrix.of V) * (Matrix.of V)ᴴ := by
          rw [Matrix.mul_assoc, Matrix.mul_assoc, hVU, Matrix.mul_one]
      _ = _ := by rw [hA, ← Matrix.mul_assoc, hUV, Matrix.one_mul]
  let L : (Fin 3 → ℂ) →ₗ[ℂ] ({n // v n = 0} → ℂ) :=
    { toFun := fun u m => (((Matrix.of V)ᴴ * uniform M) *ᵥ u) m.1
      map_add' := fun c c' => by
        funext m
        rw [Matrix.mulVec_add]
        rfl
      map_smul' := fun r c => by
        funext m
        rw [Matrix.mulVec_smul]
        rfl }
  have hL : Function.Injective L := by
    rw [← LinearMap.ker_eq_bot, Submodule.eq_bot_iff]
    intro u hu
    rw [LinearMap.mem_ker] at hu
    have hz : (Matrix.of V)ᴴ *ᵥ (uniform M *ᵥ u) = 0 := by
      funext m
      by_cases hm : v m = 0
      · have := congrFun hu ⟨m, hm⟩
        rw [Matrix.mulVec_mulVec]
        exact this
      · have h1 : ((Matrix.of V)ᴴ * D Rint data 0) *ᵥ (uniform M *ᵥ u) = 0 := by
          rw [← Matrix.mulVec_mulVec, D_zero_uniform hM hasr, Matrix.mulVec_zero]
        rw [hB, ← Matrix.mulVec_mulVec] at h1
        have h2 := congrFun h1 m
        rw [Matrix.mulVec_diagonal] at h2
        exact (mul_eq_zero.1 h2).resolve_left (by exact_mod_cast hm)
    have h3 : uniform M *ᵥ u = 0 := by
      calc uniform M *ᵥ u = Matrix.of V *ᵥ ((Matrix.of V)ᴴ *ᵥ (uniform M *ᵥ u)) := by
            rw [Matrix.mulVec_mulVec _ (Matrix.of V), hVU, Matrix.one_mulVec]
        _ = 0 := by rw [hz, Matrix.mulVec_zero]
    exact uniform_injective hn hM u h3
  have hf := LinearMap.finrank_le_finrank_of_injective hL
  rw [Module.finrank_fin_fun, Module.finrank_fintype_fun_eq_card, Fintype.card_subtype] at hf
  exact hf

/-! ### The acoustic sum rule alone -/

/-- A chain in which the force is perpendicular to the displacement of the neighbor. -/
def twist (i : Index 3 1) : ℝ := ((![0, 1, -1] : Fin 3 → ℤ) i.1 *
  (![![0, 1, 0], ![-1, 0, 0], ![0, 0, 0]] : Fin 3 → Fin 3 → ℤ) i.2.1.2 i.2.2.2 : ℤ)

theorem forceConstants_one (data : Index nR 1 → ℝ) : forceConstants true (fun _ => 1) data = data := by
  funext i
  simp [forceConstants]

theorem twist_reciprocal : Reciprocal chainR (forceConstants true (fun _ => 1) twist) := by
  rw [forceConstants_one]
  intro n m hm i j
  have e : ∀ n m, chainR m = (-(chainR n).1, -(chainR n).2.1, -(chainR n).2.2) → ∀ i j : Fin 1 × Fin 3,
      (![0, 1, -1] : Fin 3 → ℤ) n * (![![0, 1, 0], ![-1, 0, 0], ![0, 0, 0]] : Fin 3 → Fin 3 → ℤ) i.2 j.2 =
      (![0, 1, -1] : Fin 3 → ℤ) m * (![![0, 1, 0], ![-1, 0, 0], ![0, 0, 0]] : Fin 3 → Fin 3 → ℤ) j.2 i.2 := by
    decide +kernel
  unfold twist
  exact_mod_cast e n m hm i j

theorem twist_acoustic (k : Fin 1) (x y : Fin 3) :
    ∑ n, ∑ l, forceConstants true (fun _ => 1) twist (n, (k, x), (l, y)) = 0 := by
  rw [forceConstants_one]
  have e : ∀ x y : Fin 3, ∑ n : Fin 3, ∑ _l : Fin 1, (![0, 1, -1] : Fin 3 → ℤ) n *
      (![![0, 1, 0], ![-1, 0, 0], ![0, 0, 0]] : Fin 3 → Fin 3 → ℤ) x y = 0 := by decide +kernel
  unfold twist
  exact_mod_cast e x y

/-- **C184**: the acoustic sum rule alone is not enough. This chain is not changed by `sum_rule_correction` without
rotation sum rule, and the lowest squared frequency is negative and linear in the wave vector. -/
theorem C184_acoustic_only {eps : ℝ} (h0 : 0 ≤ eps) (R : Fin 3 → Fin 3 → ℝ) (r : Fin 1 → Fin 3 → ℝ) (q : Fin 3 → ℝ)
    (v : Fin (1 * 3) → ℝ)
    (hv : Spectrum (D chainR (sumRuleCorrection true false eps chainR R r true (fun _ => 1) twist) q) v) :
    v 0 ≤ -(2 * |Real.sin (q 0)|) := by
  have hu : sumRuleCorrection true false eps chainR R r true (fun _ => 1) twist = twist :=
    C74_unchanged true false h0 chainR chainR_symmetric R r true (fun _ => 1) (fun _ => one_pos) twist
      twist_reciprocal (fun _ => twist_acoustic) (fun h => absurd h (by simp))
  rw [hu] at hv
  obtain ⟨mv, V, ev, hV⟩ := spectrum_form chainR_symmetric
    (data_reciprocal (M := fun _ => 1) (fun _ => one_pos) twist_reciprocal) hv
  have hs : ∀ s : ℝ, s ^ 2 = 1 → v 0 ≤ -(2 * (s * Real.sin (q 0))) := by
    intro s hs
    let w : Fin 3 → ℂ := ![1, s * Complex.I, 0]
    let W : Matrix (Fin 3) (Fin 1) ℂ := Matrix.of fun x _ => w x
    have hW : ∀ c : Fin 1 → ℂ, W *ᵥ c = fun x => w x * c 0 := by
      intro c
      funext x
      simp [W, Matrix.mulVec, dotProduct]
    refine minmax _ v V ev hV mv (uniform (fun _ : Fin 1 => (1 : ℝ)) * W) ?_ ?_ 0 (by simp)
    · intro c hc
      rw [← Matrix.mulVec_mulVec] at hc
      have := uniform_injective one_pos (fun _ => one_pos) _ hc
      rw [hW] at this
      funext i
      rw [Subsingleton.elim i 0]
      simpa [w] using congrFun this 0
    · intro c
      rw [← Matrix.mulVec_mulVec, uniform_form, uniform_norm (fun _ => one_pos), hW, forceConstants_one]
      have hp1 : phase (chainR 1) q = Real.cos (q 0) + Real.sin (q 0) * Complex.I := by
        rw [phase_angle, mul_comm, Complex.exp_mul_I]
        simp [angle, chainR]
      have hp2 : phase (chainR 2) q = Real.cos (q 0) - Real.sin (q 0) * Complex.I := by
        rw [phase_angle, mul_comm, Complex.exp_mul_I]
        simp [angle, chainR, sub_eq_add_neg]
      have e : ∑ n, ∑ x, ∑ y, star (w x * c 0) * (w y * c 0) * ((cell twist n x y : ℝ) : ℂ) *
          phase (chainR n) q = ((-(4 * (s * Real.sin (q 0))) * ‖c 0‖ ^ 2 : ℝ) : ℂ) := by
        have hc : ((‖c 0‖ ^ 2 : ℝ) : ℂ) = star (c 0) * c 0 := by
          rw [Complex.star_def, Complex.conj_mul']
          push_cast
          rfl
        rw [Complex.ofReal_mul, hc]
        simp only [Fin.sum_univ_three, cell, twist, w, hp1, hp2]
        simp
        linear_combination (-4 * s * Complex.sin (q 0) * (starRingEnd ℂ) (c 0) * c 0) * 0 +
          (4 * s * Complex.sin (q 0) * (starRingEnd ℂ) (c 0) * c 0) * Complex.I_sq
      have e' : ∑ x, ‖w x * c 0‖ ^ 2 = 2 * ‖c 0‖ ^ 2 := by
        simp only [Fin.sum_univ_three, w, norm_mul, mul_pow]
        simp [hs]
        ring
      rw [e, e', Complex.ofReal_re]
      simp
      apply le_of_eq
      ring
  rcases le_total 0 (Real.sin (q 0)) with h | h
  · rw [abs_of_nonneg h]
    linarith [hs 1 (by norm_num)]
  · rw [abs_of_nonpos h]
    linarith [hs (-1) (by norm_num)]

/-! ### Examples -/

/-- A chain with equal springs in all directions. -/
def springs (i : Index 3 1) : ℝ := ((![2, -1, -1] : Fin 3 → ℤ) i.1 * (if i.2.1.2 = i.2.2.2 then 1 else 0) : ℤ)

theorem springs_reciprocal : Reciprocal chainR (forceConstants true (fun _ => 1) springs) := by
  rw [forceConstants_one]
  intro n m hm i j
  have e : ∀ n m, chainR m = (-(chainR n).1, -(chainR n).2.1, -(chainR n).2.2) →
      (![2, -1, -1] : Fin 3 → ℤ) n = (![2, -1, -1] : Fin 3 → ℤ) m := by decide +kernel
  unfold springs
  rw [e n m hm]
  simp only [eq_comm]

theorem springs_acoustic (k : Fin 1) (x y : Fin 3) :
    ∑ n, ∑ l, forceConstants true (fun _ => 1) springs (n, (k, x), (l, y)) = 0 := by
  rw [forceConstants_one]
  have e : ∀ x y : Fin 3, ∑ n : Fin 3, ∑ _l : Fin 1, (![2, -1, -1] : Fin 3 → ℤ) n *
      (if x = y then 1 else 0) = 0 := by decide +kernel
  unfold springs
  exact_mod_cast e x y

theorem springs_spectrum (q : Fin 3 → ℝ) :
    Spectrum (D chainR springs q) fun _ => 2 - 2 * Real.cos (q 0) := by
  refine ⟨monotone_const, fun a b => if a = b then 1 else 0, fun n x => ?_, fun m n => ?_⟩
  · rw [lower_hermitian _ (D_hermitian chainR_symmetric
      (data_reciprocal (M := fun _ => 1) (fun _ => one_pos) springs_reciprocal) q)]
    simp only [mul_ite, mul_one, mul_zero]
    rw [Finset.sum_ite_eq' Finset.univ n, if_pos (Finset.mem_univ _)]
    simp only [D, Matrix.of_apply]
    rw [dynMat_model, Fin.sum_univ_three]
    have hp0 : phase (chainR 0) q = 1 := by simp [phase, chainR]
    have hp1 : phase (chainR 1) q = Real.cos (q 0) + Real.sin (q 0) * Complex.I := by
      rw [phase_angle, mul_comm, Complex.exp_mul_I]
      simp [angle, chainR]
    have hp2 : phase (chainR 2) q = Real.cos (q 0) - Real.sin (q 0) * Complex.I := by
      rw [phase_angle, mul_comm, Complex.exp_mul_I]
      simp [angle, chainR, sub_eq_add_neg]
    rw [hp0, hp1, hp2]
    by_cases hxn : x = n
    · subst hxn
      simp [springs]
      ring
    · have : (finProdFinEquiv.symm x : Fin 1 × Fin 3).2 ≠ (finProdFinEquiv.symm n).2 := by
        intro h
        exact hxn (finProdFinEquiv.symm.injective (Prod.ext (Subsingleton.elim _ _) h))
      rw [if_neg hxn]
      simp [springs, this]
  · simp [eq_comm]

example (q : Fin 3 → ℝ) (t : ℝ) := C184_sound chainR_symmetric one_pos (fun _ => one_pos) springs_reciprocal
  springs_acoustic q t _ (springs_spectrum _) (fun _ => by linarith [Real.cos_le_one (t * q 0)]) 2 (by decide)

example := C184_gamma chainR_symmetric one_pos (fun _ => one_pos) springs_reciprocal springs_acoustic _
  (springs_spectrum 0)

example (q : Fin 3 → ℝ) : ∃ v : Fin (1 * 3) → ℝ, v 0 ≤ -(2 * |Real.sin (q 0)|) := by
  obtain ⟨eigvalsh, hE⟩ := Verif.Bands.exists_eigvalsh (d := 1 * 3)
  exact ⟨_, C184_acoustic_only le_rfl 0 0 q _ (hE _)⟩

example (Q : Fin 3 → ℝ) : ∃ v : Fin (1 * 3) → ℝ, ∀ n : Fin (1 * 3), v n ≤ stiffness chainR (forceConstants true (fun _ => 1)
    (sumRuleCorrection true true 0 chainR (fun n => cart (fun i j => if i = j then 1 else 0) (chainR n)) 0 true
      (fun _ => 1) twist)) (fun _ => 1) (fun i => ∑ x, (if i = x then 1 else 0) * Q x) / 2 := by
  obtain ⟨eigvalsh, hE⟩ := Verif.Bands.exists_eigvalsh (d := 1 * 3)
  exact ⟨_, fun n => C184_corrected chainR chainR_symmetric one_pos (fun i j => if i = j then 1 else 0) 0 (fun _ => 1)
    (fun _ => one_pos) twist twist_reciprocal _ Q (fun _ => rfl) _ (hE _) n n.2⟩

end Verif.Phon.Acoustic
