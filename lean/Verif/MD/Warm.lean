import Verif.MD.Ground

/-!
# Stability at high temperatures (C189)

The softening of phonons by electrons is inversely proportional to the temperature at most. Hence, if the unscreened crystal is stable, there are neither
imaginary phonon frequencies nor distorted structures above a certain temperature. The model is that of `MD/Model.lean` and `MD/Optimize.lean`.
-/

namespace Verif.MD.Warm

open Verif.Diag
open Verif.MD.Optimize
open Verif.MD.Bounds
open Verif.MD.Differentiable
open Verif.MD.Thermo
open Matrix Filter Topology

variable {n1 n2 n3 nb nat nq : Nat} [NeZero n1] [NeZero n2] [NeZero n3]

/-- Specification: square of the coupling to a pattern of displacements, averaged over k points and summed over orbitals. -/
noncomputable def strength (s : Driver n1 n2 n3 nb nat nq) (iq : Fin (nq + 1)) (w : X nat → ℂ) : ℝ :=
  (∑ k, ∑ a, ∑ b, ‖∑ x, w x * s.d0 iq x k a b‖ ^ 2) / (n1 * n2 * n3 : Nat)

/-- Specification: the same, summed over all displacements. -/
noncomputable def total (s : Driver n1 n2 n3 nb nat nq) (iq : Fin (nq + 1)) : ℝ :=
  (∑ k, ∑ a, ∑ b, ∑ x, ‖s.d0 iq x k a b‖ ^ 2) / (n1 * n2 * n3 : Nat)

theorem strength_le (s : Driver n1 n2 n3 nb nat nq) (iq : Fin (nq + 1)) (w : X nat → ℂ) : strength s iq w ≤ total s iq * ∑ x, ‖w x‖ ^ 2 := by
  unfold strength total
  rw [div_mul_eq_mul_div, Finset.sum_mul]
  refine div_le_div_of_nonneg_right (Finset.sum_le_sum fun k _ => ?_) (Nat.cast_nonneg _)
  rw [Finset.sum_mul]
  refine Finset.sum_le_sum fun a _ => ?_
  rw [Finset.sum_mul]
  refine Finset.sum_le_sum fun b _ => ?_
  have h1 : ‖∑ x, w x * s.d0 iq x k a b‖ ≤ ∑ x, ‖w x‖ * ‖s.d0 iq x k a b‖ :=
    (norm_sum_le _ _).trans (Finset.sum_le_sum fun x _ => (norm_mul _ _).le)
  have h2 := Finset.sum_mul_sq_le_sq_mul_sq Finset.univ (fun x => ‖w x‖) fun x => ‖s.d0 iq x k a b‖
  rw [mul_comm]
  exact (pow_le_pow_left₀ (norm_nonneg _) h1 2).trans h2

theorem total_nonneg (s : Driver n1 n2 n3 nb nat nq) (iq : Fin (nq + 1)) : 0 ≤ total s iq := by
  unfold total
  positivity

theorem frobenius (A : Matrix (Fin nb) (Fin nb) ℂ) : ∑ m, ∑ n, ‖A m n‖ ^ 2 = (Aᴴ * A).trace.re := by
  unfold Matrix.trace
  rw [Complex.re_sum, Finset.sum_comm]
  refine Finset.sum_congr rfl fun n _ => ?_
  rw [Matrix.diag_apply, Matrix.mul_apply, Complex.re_sum]
  refine Finset.sum_congr rfl fun m _ => ?_
  rw [Matrix.conjTranspose_apply, Complex.star_def, Complex.conj_mul']
  norm_cast

theorem frobenius_unitary {V U : Matrix (Fin nb) (Fin nb) ℂ} (hV : Vᴴ * V = 1) (hU : Uᴴ * U = 1) (D : Matrix (Fin nb) (Fin nb) ℂ) :
    ∑ m, ∑ n, ‖(Vᴴ * D * U) m n‖ ^ 2 = ∑ a, ∑ b, ‖D a b‖ ^ 2 := by
  have hV' := mul_eq_one_comm.1 hV
  have hU' := mul_eq_one_comm.1 hU
  rw [frobenius, frobenius]
  have : (Vᴴ * D * U)ᴴ * (Vᴴ * D * U) = Uᴴ * (Dᴴ * D * U) := by
    rw [conjTranspose_mul, conjTranspose_mul, conjTranspose_conjTranspose]
    simp only [Matrix.mul_assoc]
    rw [← Matrix.mul_assoc V, hV', Matrix.one_mul]
  rw [this, Matrix.trace_mul_comm, Matrix.mul_assoc, hU', Matrix.mul_one]

/-- Occupations change by at most `B` per `kT`. -/
theorem weights_ge {occ delta : ℝ → ℝ} {B kT : ℝ} (hkT : 0 < kT) (h1 : ∀ x, HasDerivAt occ (-delta x) x) (h0 : ∀ x, 0 ≤ delta x)
    (hB : ∀ x, delta x ≤ B) {eps : ℝ} (heps : 0 ≤ eps) (e : Mesh n1 n2 n3 → Fin nb → ℝ) (q : Fin 3 → ℝ) (k : Mesh n1 n2 n3) (m n : Fin nb) :
    -(B / kT) ≤ weights eps kT occ delta none e q k m n := by
  unfold weights dfde envelope
  dsimp only
  rw [mul_one]
  split_ifs with h
  · set a := e k n
    set b := slice e (qIndices n1 n2 n3 q) k m
    have hs : slice (fun k n => occ (e k n / kT)) (qIndices n1 n2 n3 q) k m = occ (b / kT) := by
      rw [slice_eq]
      show _ = occ (slice e (qIndices n1 n2 n3 q) k m / kT)
      rw [slice_eq]
    rw [hs]
    have hd : a - b ≠ 0 := abs_pos.1 (heps.trans_lt h)
    have hL : ‖occ (a / kT) - occ (b / kT)‖ ≤ B * ‖a / kT - b / kT‖ :=
      Convex.norm_image_sub_le_of_norm_hasDerivWithin_le (s := Set.univ) (fun x _ => (h1 x).hasDerivWithinAt)
        (fun x _ => by rw [norm_neg, Real.norm_of_nonneg (h0 x)]; exact hB x) convex_univ (Set.mem_univ _) (Set.mem_univ _)
    rw [Real.norm_eq_abs, Real.norm_eq_abs, ← sub_div, abs_div, abs_of_pos hkT] at hL
    refine (abs_le.1 ?_).1
    rw [abs_div, div_le_iff₀ (abs_pos.2 hd)]
    refine hL.trans (le_of_eq ?_)
    ring
  · rw [div_neg]
    exact neg_le_neg (div_le_div_of_nonneg_right (hB _) hkT.le)

variable {occ delta entropy : ℝ → ℝ} {s : Driver n1 n2 n3 nb nat nq}
  {eigh : Matrix (Fin nb) (Fin nb) ℂ → (Fin nb → ℝ) × Matrix (Fin nb) (Fin nb) ℂ}

theorem coupling_band (hU : ∀ k, (s.U k)ᴴ * s.U k = 1) (iq : Fin (nq + 1)) (w : X nat → ℂ) (k : Mesh n1 n2 n3) :
    ∑ m, ∑ n, ‖∑ x, s.d iq x k m n * w x‖ ^ 2 = ∑ a, ∑ b, ‖∑ x, w x * s.d0 iq x k a b‖ ^ 2 := by
  have hV : (slice s.U (qIndices n1 n2 n3 (s.q iq)) k)ᴴ * slice s.U (qIndices n1 n2 n3 (s.q iq)) k = 1 := by
    rw [slice_eq]
    exact hU _
  have h1 : ∀ m n, ∑ x, s.d iq x k m n * w x =
      ((slice s.U (qIndices n1 n2 n3 (s.q iq)) k)ᴴ * (∑ x, w x • s.d0 iq x k) * s.U k) m n := by
    intro m n
    rw [Matrix.mul_sum, Matrix.sum_mul, Matrix.sum_apply]
    refine Finset.sum_congr rfl fun x _ => ?_
    rw [Matrix.mul_smul, Matrix.smul_mul, Matrix.smul_apply, smul_eq_mul, mul_comm]
    rfl
  simp only [h1]
  rw [frobenius_unitary hV (hU k)]
  refine Finset.sum_congr rfl fun a _ => Finset.sum_congr rfl fun b _ => ?_
  rw [Matrix.sum_apply]
  rfl

/-- The shift of the chemical potential makes the crystal stiffer. -/
theorem shift_nonneg (hkT : 0 < s.kT) (h0 : ∀ x, 0 ≤ delta x) (hq : s.q 0 = fun _ => 0) (hd : ∀ x k, (s.d0 0 x k)ᴴ = s.d0 0 x k)
    (w : X nat → ℂ) : 0 ≤ (∑ x, ∑ y, star (w x) * fermiShift s.kT delta s.e (s.d 0) x y * w y).re := by
  have hreal : ∀ x k n, s.d 0 x k n n = (((s.d 0 x k n n).re : ℝ) : ℂ) := by
    intro x k n
    rw [d_zero s hq]
    have h1 := congrFun (congrFun (show ((s.U k)ᴴ * s.d0 0 x k * s.U k)ᴴ = (s.U k)ᴴ * s.d0 0 x k * s.U k by
      rw [conjTranspose_mul, conjTranspose_mul, conjTranspose_conjTranspose, hd, Matrix.mul_assoc]) n) n
    exact (Complex.conj_eq_iff_re.1 h1).symm
  set dos := ∑ k, ∑ n, delta (s.e k n / s.kT) / s.kT with hdos
  have hdos0 : 0 ≤ dos := Finset.sum_nonneg fun k _ => Finset.sum_nonneg fun n _ => div_nonneg (h0 _) hkT.le
  set r : X nat → ℝ := fun x => (∑ k, ∑ n, delta (s.e k n / s.kT) / s.kT * (s.d 0 x k n n).re) / dos with hr
  have havg : ∀ x, (∑ k, ∑ n, ((delta (s.e k n / s.kT) / s.kT : ℝ) : ℂ) * s.d 0 x k n n) / (dos : ℂ) = (r x : ℂ) := by
    intro x
    rw [hr]
    push_cast
    refine congrArg₂ (· / ·) (Finset.sum_congr rfl fun k _ => Finset.sum_congr rfl fun n _ => ?_) rfl
    rw [← hreal]
  have hF : ∀ x y, fermiShift s.kT delta s.e (s.d 0) x y = ((2 / ((n1 * n2 * n3 : Nat) : ℝ) * dos * (r x * r y) : ℝ) : ℂ) := by
    intro x y
    unfold fermiShift
    dsimp only
    rw [← hdos, havg, havg]
    push_cast
    rfl
  clear_value r dos
  have hsum : ∑ x, ∑ y, star (w x) * fermiShift s.kT delta s.e (s.d 0) x y * w y =
      ((2 / ((n1 * n2 * n3 : Nat) : ℝ) * dos * ‖∑ x, (r x : ℂ) * w x‖ ^ 2 : ℝ) : ℂ) := by
    have h2 : ((‖∑ x, (r x : ℂ) * w x‖ ^ 2 : ℝ) : ℂ) = star (∑ x, (r x : ℂ) * w x) * ∑ y, (r y : ℂ) * w y := by
      push_cast
      exact (Complex.conj_mul' _).symm
    rw [Complex.ofReal_mul, h2, star_sum, Finset.sum_mul, Finset.mul_sum]
    refine Finset.sum_congr rfl fun x _ => ?_
    rw [Finset.mul_sum, Finset.mul_sum]
    refine Finset.sum_congr rfl fun (y : X nat) _ => ?_
    rw [hF, star_mul', star_real]
    push_cast
    ring
  rw [hsum, Complex.ofReal_re]
  positivity

theorem electronic_ge {B eps : ℝ} (heps : 0 ≤ eps) (hkT : 0 < s.kT) (h1 : ∀ x, HasDerivAt occ (-delta x) x) (h0 : ∀ x, 0 ≤ delta x)
    (hB : ∀ x, delta x ≤ B) (hq : s.q 0 = fun _ => 0) (hd : ∀ x k, (s.d0 0 x k)ᴴ = s.d0 0 x k) (hU : ∀ k, (s.U k)ᴴ * s.U k = 1)
    (iq : Fin (nq + 1)) (w : X nat → ℂ) :
    -(2 * B / s.kT * strength s iq w) ≤ (∑ x, ∑ y, star (w x) * s.electronic eps occ delta iq x y * w y).re := by
  have hbub : -(2 * B / s.kT * strength s iq w) ≤ (∑ x, ∑ y, star (w x) * selfEnergy false false
      (fun k m n => (weights eps s.kT occ delta none s.e (s.q iq) k m n : ℂ)) (fun _ _ => 0) (s.d iq) none x y * w y).re := by
    rw [quadratic, Complex.ofReal_re]
    have h2 : -(B / s.kT) * (∑ k, ∑ m, ∑ n, ‖∑ x, s.d iq x k m n * w x‖ ^ 2) ≤
        ∑ k, ∑ m, ∑ n, weights eps s.kT occ delta none s.e (s.q iq) k m n * ‖∑ x, s.d iq x k m n * w x‖ ^ 2 := by
      simp only [Finset.mul_sum]
      exact Finset.sum_le_sum fun k _ => Finset.sum_le_sum fun m _ => Finset.sum_le_sum fun n _ =>
        mul_le_mul_of_nonneg_right (weights_ge hkT h1 h0 hB heps s.e (s.q iq) k m n) (sq_nonneg _)
    simp only [fun k => coupling_band hU iq w k] at h2
    refine le_trans (le_of_eq ?_) (mul_le_mul_of_nonneg_left h2 (show (0 : ℝ) ≤ 2 / (n1 * n2 * n3 : Nat) by positivity))
    unfold strength
    ring
  by_cases h : iq = 0
  · subst h
    have h3 := shift_nonneg hkT h0 hq hd w
    have h4 : ∑ x, ∑ y, star (w x) * s.electronic eps occ delta 0 x y * w y = (∑ x, ∑ y, star (w x) * selfEnergy false false
        (fun k m n => (weights eps s.kT occ delta none s.e (s.q 0) k m n : ℂ)) (fun _ _ => 0) (s.d 0) none x y * w y) +
        ∑ x, ∑ y, star (w x) * fermiShift s.kT delta s.e (s.d 0) x y * w y := by
      simp only [← Finset.sum_add_distrib]
      refine Finset.sum_congr rfl fun x _ => Finset.sum_congr rfl fun y _ => ?_
      unfold Driver.electronic
      rw [if_pos rfl]
      ring
    rw [h4, Complex.add_re]
    linarith
  · have h4 : ∀ x y, s.electronic eps occ delta iq x y = selfEnergy false false
        (fun k m n => (weights eps s.kT occ delta none s.e (s.q iq) k m n : ℂ)) (fun _ _ => 0) (s.d iq) none x y := by
      intro x y
      unfold Driver.electronic
      rw [if_neg h, add_zero]
    simp only [h4]
    exact hbub

variable {level : (Mesh n1 n2 n3 → Fin nb → ℝ) → ℝ}

/-- **C189**: for all wave vectors and structures, electrons soften the phonons by at most `2 B / kT` times the square of the coupling. -/
theorem C189_soft {B eps : ℝ} (heps : 0 ≤ eps) (hkT : 0 < s.kT) (h1 : ∀ x, HasDerivAt occ (-delta x) x) (h0 : ∀ x, 0 ≤ delta x)
    (hB : ∀ x, delta x ≤ B) (hq : s.q 0 = fun _ => 0) (h : Externals occ eigh level s) (u : X nat → ℝ) (iq : Fin (nq + 1)) (w : X nat → ℂ) :
    (∑ x, ∑ y, star (w x) * s.C0 iq x y * w y).re - 2 * B / s.kT * strength s iq w ≤
      (∑ x, ∑ y, star (w x) * (solved eigh level s u).hessian eps occ delta iq x y * w y).re := by
  have key := electronic_ge (s := solved eigh level s u) (occ := occ) heps hkT h1 h0 hB hq h.coupling (solved_diagonalized h u).unitary iq w
  have h2 : ∑ x, ∑ y, star (w x) * (solved eigh level s u).hessian eps occ delta iq x y * w y =
      ∑ x, ∑ y, star (w x) * (solved eigh level s u).electronic eps occ delta iq x y * w y + ∑ x, ∑ y, star (w x) * s.C0 iq x y * w y := by
    simp only [← Finset.sum_add_distrib]
    refine Finset.sum_congr rfl fun x _ => Finset.sum_congr rfl fun y _ => ?_
    unfold Driver.hessian
    rw [mul_add, add_mul]
    rfl
  rw [h2, Complex.add_re]
  have h3 : strength (solved eigh level s u) iq w = strength s iq w := rfl
  have h4 : (solved eigh level s u).kT = s.kT := rfl
  rw [h3, h4] at key
  linarith

/-- **C189**: if the unscreened crystal is stable and the temperature sufficiently high, there are no imaginary phonon frequencies, whatever the
structure. -/
theorem C189_phonons {B eps c : ℝ} (heps : 0 ≤ eps) (hkT : 0 < s.kT) (h1 : ∀ x, HasDerivAt occ (-delta x) x) (h0 : ∀ x, 0 ≤ delta x)
    (hB : ∀ x, delta x ≤ B) (hq : s.q 0 = fun _ => 0) (h : Externals occ eigh level s) (u : X nat → ℝ) (iq : Fin (nq + 1)) (w : X nat → ℂ)
    (hc : c * ∑ x, ‖w x‖ ^ 2 ≤ (∑ x, ∑ y, star (w x) * s.C0 iq x y * w y).re) (hT : 2 * B * total s iq ≤ c * s.kT) :
    0 ≤ (∑ x, ∑ y, star (w x) * (solved eigh level s u).hessian eps occ delta iq x y * w y).re := by
  have key := C189_soft heps hkT h1 h0 hB hq h u iq w
  have hB0 : 0 ≤ B := (h0 0).trans (hB 0)
  have h2 := mul_le_mul_of_nonneg_left (strength_le s iq w) (show 0 ≤ 2 * B / s.kT by positivity)
  have h3 : 2 * B / s.kT * (total s iq * ∑ x, ‖w x‖ ^ 2) ≤ c * ∑ x, ‖w x‖ ^ 2 := by
    rw [← mul_assoc]
    refine mul_le_mul_of_nonneg_right ?_ (Finset.sum_nonneg fun x _ => sq_nonneg _)
    rw [div_mul_eq_mul_div, div_le_iff₀ hkT]
    exact hT
  linarith

/-! ### Structures -/

theorem second_order {g g' : ℝ → ℝ} {m : ℝ} (h : ∀ t, HasDerivAt g (g' t) t) (h' : ∀ t, ∃ c, m ≤ c ∧ HasDerivAt g' c t) :
    g 0 + g' 0 + m / 2 ≤ g 1 := by
  have hmono : Monotone fun t => g' t - m * t := by
    refine monotone_of_deriv_nonneg (fun t => ?_) fun t => ?_
    · obtain ⟨c, -, hd⟩ := h' t
      exact (hd.sub ((hasDerivAt_id t).const_mul m)).differentiableAt
    · obtain ⟨c, hc, hd⟩ := h' t
      have := hd.sub ((hasDerivAt_id t).const_mul m)
      rw [mul_one] at this
      have h2 : deriv (fun t => g' t - m * t) t = c - m := this.deriv
      rw [h2]
      linarith
  have hd : ∀ t, HasDerivAt (fun t => g t - m * t ^ 2 / 2 - g' 0 * t) (g' t - m * t - g' 0) t := by
    intro t
    refine (((h t).sub ((((hasDerivAt_id t).pow 2).const_mul m).div_const 2)).sub ((hasDerivAt_id t).const_mul (g' 0))).congr_deriv ?_
    simp only [id]
    norm_num
    ring
  have hm : MonotoneOn (fun t => g t - m * t ^ 2 / 2 - g' 0 * t) (Set.Ici 0) := by
    refine monotoneOn_of_deriv_nonneg (convex_Ici 0) (continuous_iff_continuousAt.2 fun t => (hd t).continuousAt).continuousOn
      (fun t _ => (hd t).differentiableAt.differentiableWithinAt) fun t ht => ?_
    rw [interior_Ici] at ht
    rw [(hd t).deriv]
    have := hmono (Set.mem_Ioi.1 ht).le
    simp only [mul_zero, sub_zero] at this
    linarith
  have := hm (Set.mem_Ici.2 le_rfl) (Set.mem_Ici.2 zero_le_one) zero_le_one
  simp only at this
  linarith

/-- Complex amplitudes of real displacements. -/
theorem real_form (C : X nat → X nat → ℂ) (w : X nat → ℝ) : (∑ x, ∑ y, star (w x : ℂ) * C x y * (w y : ℂ)).re = form C w := by
  unfold form
  rw [Complex.re_sum]
  refine Finset.sum_congr rfl fun x _ => ?_
  rw [Complex.re_sum]
  refine Finset.sum_congr rfl fun y _ => ?_
  rw [star_real, Complex.re_mul_ofReal, Complex.re_ofReal_mul]

/-- **C189**: lower bound of the free energy of any structure in terms of energy and forces of any other structure, cf. C182 for the upper bound. -/
theorem C189_tangent [NeZero nb] {B : ℝ} (hkT : 0 < s.kT) (h1 : ∀ x, HasDerivAt occ (-delta x) x)
    (h3 : ∀ x, HasDerivAt entropy (-x * delta x) x) (h0 : ∀ x, 0 < delta x) (hcont : Continuous delta) (hB : ∀ x, delta x ≤ B)
    (hq : s.q 0 = fun _ => 0) (h : Externals occ eigh level s) (hC : ∀ x y, (s.C0 0 x y).re = (s.C0 0 y x).re) (u w : X nat → ℝ) :
    E eigh level occ entropy s u + ∑ x, G eigh level occ s u x * center w x +
        1 / 2 * (form (s.C0 0) (center w) - 2 * B / s.kT * strength s 0 fun x => (center w x : ℂ)) ≤
      E eigh level occ entropy s fun x => u x + w x := by
  have e0 : (fun x => u x + 0 * w x) = u := by
    funext x
    ring
  have e1 : (fun x => u x + 1 * w x) = fun x => u x + w x := by
    funext x
    ring
  have key := second_order (g := fun t => E eigh level occ entropy s fun x => u x + t * w x)
    (g' := fun t => ∑ x, G eigh level occ s (fun x => u x + t * w x) x * center w x)
    (m := form (s.C0 0) (center w) - 2 * B / s.kT * strength s 0 fun x => (center w x : ℂ))
    (fun t => C185_gradient h hkT h1 h3 h0 hcont hC (fun t x => u x + t * w x) w t fun x => line_hasDerivAt u w t x)
    (fun t => ⟨∑ x, (∑ y, H eigh level occ delta 0 s (fun x => u x + t * w x) x y * center w y) * center w x, ?_,
      HasDerivAt.fun_sum fun x _ => (C185_hessian h hkT h1 h0 hcont 0 le_rfl hq (fun t x => u x + t * w x) w t
        (fun x => line_hasDerivAt u w t x) (fun k m n hne => abs_pos.2 (sub_ne_zero.2 hne)) x).mul_const (center w x)⟩)
  · simp only [e0, e1] at key
    linarith
  · have k2 := C189_soft (eps := 0) le_rfl hkT h1 (fun x => (h0 x).le) hB hq h (fun x => u x + t * w x) 0 fun x => (center w x : ℂ)
    rw [real_form, real_form] at k2
    refine k2.trans (le_of_eq ?_)
    unfold form
    refine Finset.sum_congr rfl fun x _ => ?_
    rw [Finset.sum_mul]
    refine Finset.sum_congr rfl fun y _ => ?_
    show _ = ((solved eigh level s fun x => u x + t * w x).hessian 0 occ delta 0 x y).re * center w y * center w x
    ring

theorem center_diff (u v : X nat → ℝ) : center (fun x => v x - u x) = fun x => center v x - center u x := by
  funext x
  unfold center
  rw [Finset.sum_sub_distrib]
  ring

theorem norm_real (w : X nat → ℝ) : ∑ x, ‖((center w x : ℝ) : ℂ)‖ ^ 2 = ∑ x, center w x ^ 2 :=
  Finset.sum_congr rfl fun x _ => by rw [Complex.norm_real, Real.norm_eq_abs, sq_abs]

/-- **C189**: if the unscreened crystal is stable and the temperature sufficiently high, a structure without forces has a lower free energy than all other
structures, apart from collective displacements: there is no other relaxed structure. -/
theorem C189_unique [NeZero nb] {B c : ℝ} (hkT : 0 < s.kT) (h1 : ∀ x, HasDerivAt occ (-delta x) x)
    (h3 : ∀ x, HasDerivAt entropy (-x * delta x) x) (h0 : ∀ x, 0 < delta x) (hcont : Continuous delta) (hB : ∀ x, delta x ≤ B)
    (hq : s.q 0 = fun _ => 0) (h : Externals occ eigh level s) (hC : ∀ x y, (s.C0 0 x y).re = (s.C0 0 y x).re)
    (hpos : ∀ w, c * ∑ x, center w x ^ 2 ≤ form (s.C0 0) (center w)) (hT : 2 * B * total s 0 < c * s.kT) {u v : X nat → ℝ}
    (hu : center (G eigh level occ s u) = fun _ => 0) (hv : center v ≠ center u) :
    E eigh level occ entropy s u < E eigh level occ entropy s v := by
  have key := C189_tangent hkT h1 h3 h0 hcont hB hq h hC u fun x => v x - u x
  have e1 : (fun x => u x + (v x - u x)) = v := by
    funext x
    ring
  rw [e1, sum_center, hu] at key
  simp only [zero_mul, Finset.sum_const_zero, add_zero] at key
  have hB0 : 0 ≤ B := (h0 0).le.trans (hB 0)
  have k2 := mul_le_mul_of_nonneg_left (strength_le s 0 fun x => ((center (fun x => v x - u x) x : ℝ) : ℂ)) (show 0 ≤ 2 * B / s.kT by positivity)
  rw [norm_real] at k2
  have k3 := hpos fun x => v x - u x
  have hne : 0 < ∑ x, center (fun x => v x - u x) x ^ 2 := by
    refine lt_of_le_of_ne (Finset.sum_nonneg fun x _ => sq_nonneg _) fun h5 => hv ?_
    funext x
    have h6 := (Finset.sum_eq_zero_iff_of_nonneg fun x _ => sq_nonneg _).1 h5.symm x (Finset.mem_univ x)
    rw [center_diff] at h6
    exact sub_eq_zero.1 (pow_eq_zero_iff two_ne_zero |>.1 h6)
  have k4 : 2 * B / s.kT * (total s 0 * ∑ x, center (fun x => v x - u x) x ^ 2) < c * ∑ x, center (fun x => v x - u x) x ^ 2 := by
    rw [← mul_assoc]
    refine mul_lt_mul_of_pos_right ?_ hne
    rw [div_mul_eq_mul_div, div_lt_iff₀ hkT]
    exact hT
  linarith

section init
variable (eps : ℝ) (unscreen : Bool) (kT n : ℝ) (q : Fin (nq + 1) → Fin 3 → ℝ) (H0 : Mesh n1 n2 n3 → Matrix (Fin nb) (Fin nb) ℂ)
  (C0 : Fin (nq + 1) → X nat → X nat → ℂ) (d0 : Fin (nq + 1) → X nat → Mesh n1 n2 n3 → Matrix (Fin nb) (Fin nb) ℂ)

/-- **C189**: for a driver as set up, no charge-density wave forms if the temperature is sufficiently high: any other structure has a larger free energy
than the reference. -/
theorem C189_reference [NeZero nb] {B c : ℝ} (hkT : 0 < kT) (h1 : ∀ x, HasDerivAt occ (-delta x) x)
    (h3 : ∀ x, HasDerivAt entropy (-x * delta x) x) (h0 : ∀ x, 0 < delta x) (hcont : Continuous delta) (hB : ∀ x, delta x ≤ B)
    (hq : q 0 = fun _ => 0) (h : Externals occ eigh level (Driver.init eigh level eps occ delta unscreen kT n q H0 C0 d0))
    (heps : 0 ≤ eps) (hC : ∀ x y, star (C0 0 x y) = C0 0 y x) (hpos : ∀ w, c * ∑ x, center w x ^ 2 ≤ form (C0 0) (center w))
    (hT : 2 * B * ((∑ k, ∑ a, ∑ b, ∑ x, ‖d0 0 x k a b‖ ^ 2) / (n1 * n2 * n3 : Nat)) < c * kT) {v : X nat → ℝ} (hv : center v ≠ fun _ => 0) :
    (Driver.init eigh level eps occ delta unscreen kT n q H0 C0 d0).freeEnergy occ entropy <
      E eigh level occ entropy (Driver.init eigh level eps occ delta unscreen kT n q H0 C0 d0) v := by
  have hk : (Driver.init eigh level eps occ delta unscreen kT n q H0 C0 d0).kT = kT := by unfold Driver.init; cases unscreen <;> rfl
  have hq' : (Driver.init eigh level eps occ delta unscreen kT n q H0 C0 d0).q = q := by unfold Driver.init; cases unscreen <;> rfl
  have hd' : (Driver.init eigh level eps occ delta unscreen kT n q H0 C0 d0).d0 = d0 := by unfold Driver.init; cases unscreen <;> rfl
  have hG : G eigh level occ (Driver.init eigh level eps occ delta unscreen kT n q H0 C0 d0) (fun _ => 0) = fun _ => 0 := by
    have := (C55_forces eigh level eps occ delta unscreen kT n q H0 C0 d0).2
    funext x
    unfold G
    rw [solved_init]
    exact congrFun this x
  have hE : E eigh level occ entropy (Driver.init eigh level eps occ delta unscreen kT n q H0 C0 d0) (fun _ => 0) =
      (Driver.init eigh level eps occ delta unscreen kT n q H0 C0 d0).freeEnergy occ entropy := by
    unfold E
    rw [solved_init]
  have hd : ∀ x k, (d0 0 x k)ᴴ = d0 0 x k := by
    have := h.coupling
    rwa [hd'] at this
  have hst := C182_unscreen (eigh := eigh) (level := level) (occ := occ) (delta := delta) eps unscreen kT n q H0 C0 d0 heps hkT
    (occ_anti h1 h0).antitone h0 hq hd
  rw [← hE]
  refine C189_unique (s := Driver.init eigh level eps occ delta unscreen kT n q H0 C0 d0) (by rw [hk]; exact hkT) h1 h3 h0 hcont hB
    (by rw [hq']; exact hq) h (Translation.init_symm (occ := occ) (eigh := eigh) (level := level) eps delta unscreen kT n q H0 C0 d0 hC)
    (fun w => (hpos w).trans (hst _)) ?_ ?_ ?_
  · unfold total
    rw [hk, hd']
    exact hT
  · rw [hG, Bounds.center_zero]
  · rwa [Bounds.center_zero]

end init

/-- The bound on the temperature. -/
theorem enough {B c T : ℝ} (hc : 0 < c) (iq : Fin (nq + 1)) (hB : 0 ≤ B) (hT : 2 * B * (∑ jq, total s jq) / c < T) : 2 * B * total s iq < c * T := by
  rw [div_lt_iff₀ hc, mul_comm T] at hT
  refine lt_of_le_of_lt (mul_le_mul_of_nonneg_left ?_ (by linarith)) hT
  exact Finset.single_le_sum (f := fun jq => total s jq) (fun jq _ => total_nonneg s jq) (Finset.mem_univ iq)

/-- **C189**: for all models with stable unscreened phonons, there is a temperature above which, for any number of electrons, the crystal has one relaxed
structure, which has the lowest free energy, and no structure has imaginary phonon frequencies. -/
theorem C189_heated [NeZero nb] {B c : ℝ} (hc : 0 < c) (h1 : ∀ x, HasDerivAt occ (-delta x) x)
    (h3 : ∀ x, HasDerivAt entropy (-x * delta x) x) (h0 : ∀ x, 0 < delta x) (hcont : Continuous delta) (hB : ∀ x, delta x ≤ B)
    (h01 : ∀ x, 0 ≤ occ x ∧ occ x ≤ 1) (hq : s.q 0 = fun _ => 0) (h : Ground.Solver eigh s) (hC : ∀ x y, (s.C0 0 x y).re = (s.C0 0 y x).re)
    (hpos : ∀ w, c * ∑ x, center w x ^ 2 ≤ form (s.C0 0) (center w)) {level : ℝ → ℝ → (Mesh n1 n2 n3 → Fin nb → ℝ) → ℝ} :
    ∃ T0, ∀ T N, T0 < T → Level level occ T N →
      (∃ u, (∀ v, center v ≠ center u → F eigh level occ entropy s T N u < F eigh level occ entropy s T N v) ∧
        ∀ v, center (G eigh (level T N) occ (env s T N) v) = (fun _ => 0) ↔ center v = center u) ∧
      ∀ (eps : ℝ) (v : X nat → ℝ) (iq : Fin (nq + 1)) (w : X nat → ℂ), 0 ≤ eps →
        c * ∑ x, ‖w x‖ ^ 2 ≤ (∑ x, ∑ y, star (w x) * s.C0 iq x y * w y).re →
        0 ≤ (∑ x, ∑ y, star (w x) * (solved eigh (level T N) (env s T N) v).hessian eps occ delta iq x y * w y).re := by
  have hB0 : 0 ≤ B := (h0 0).le.trans (hB 0)
  have hT0 : 0 ≤ 2 * B * (∑ jq, total s jq) / c :=
    div_nonneg (mul_nonneg (by linarith) (Finset.sum_nonneg fun jq _ => total_nonneg s jq)) hc.le
  refine ⟨2 * B * (∑ jq, total s jq) / c, fun T N hT hl => ?_⟩
  have hT' : 0 < T := hT0.trans_lt hT
  have he : Externals occ eigh (level T N) (env s T N) := ⟨h.eig, h.unitary, hl, h.hamiltonian, h.coupling⟩
  have hlt : ∀ iq, 2 * B * total (env s T N) iq < c * T := fun iq => enough (s := s) hc iq hB0 hT
  obtain ⟨u, -, -, hg⟩ := C182_minimum (s := env s T N) (entropy := entropy) hT' h1 h3 (occ_anti h1 h0).antitone h01 he hC c hc hpos
  refine ⟨⟨u, fun v hv => C189_unique (s := env s T N) hT' h1 h3 h0 hcont hB hq he hC hpos (hlt 0) hg hv, fun v => ⟨fun hv => ?_, fun hv => ?_⟩⟩, ?_⟩
  · by_contra hne
    have a := C189_unique (s := env s T N) (entropy := entropy) hT' h1 h3 h0 hcont hB hq he hC hpos (hlt 0) hg hne
    have b := C189_unique (s := env s T N) (entropy := entropy) hT' h1 h3 h0 hcont hB hq he hC hpos (hlt 0) hv fun e => hne e.symm
    exact lt_asymm a b
  · rw [← hg]
    refine congrArg center ?_
    unfold G solved Driver.diagonalize
    dsimp only
    simp only [hv]
  · intro eps v iq w heps hw
    exact C189_phonons (s := env s T N) heps hT' h1 (fun x => (h0 x).le) hB hq he v iq w hw (hlt iq).le

section examples
open Verif.Occ

/-- Bounds on the derivatives of occupations. -/
theorem delta_bounds : (∀ x, fdDelta x ≤ 1 / 4) ∧ ∀ x, gaussDelta x ≤ 1 / Real.sqrt Real.pi := by
  refine ⟨fun x => ?_, fun x => ?_⟩
  · unfold fdDelta
    exact one_div_le_one_div_of_le (by norm_num) (by linarith [Real.one_le_cosh x])
  · unfold gaussDelta
    refine div_le_div_of_nonneg_right (Real.exp_le_one_iff.2 ?_) (Real.sqrt_nonneg _)
    nlinarith [mul_self_nonneg x]

/-- Two atoms with springs and electrons that want them to approach each other. -/
example (k : ℝ) (hk : 0 < k) : ∃ (eigh : Matrix (Fin 2) (Fin 2) ℂ → (Fin 2 → ℝ) × Matrix (Fin 2) (Fin 2) ℂ)
    (level : ℝ → ℝ → (Mesh 1 1 1 → Fin 2 → ℝ) → ℝ) (T0 : ℝ), ∀ T, T0 < T → 0 < T → ∃ u, ∀ v, center v ≠ center u →
      F eigh level gauss gaussEntropy (trap k) T 2 u < F eigh level gauss gaussEntropy (trap k) T 2 v := by
  obtain ⟨eigh, level, he, hl, h1, h3, hd, -⟩ := example_thermo (n1 := 1) (n2 := 1) (n3 := 1) (nb := 2)
  obtain ⟨T0, hT⟩ := C189_heated (s := trap k) (level := level) (eigh := eigh) (show 0 < 2 * k by linarith) h1 h3 hd gaussDelta_continuous
    delta_bounds.2 gauss_range rfl ⟨fun A hA => (he A hA).1, fun A hA => (he A hA).2, duo_externals.hamiltonian, duo_externals.coupling⟩ (springs_symm k)
    fun w => (springs_form k w).ge
  refine ⟨eigh, level, T0, fun T h h' => ?_⟩
  obtain ⟨⟨u, hu, -⟩, -⟩ := hT T 2 h (hl T 2 h' two_pos (by norm_num)).self_of_nhds
  exact ⟨u, hu⟩

/-- The same for stiff springs, starting from force constants that already include the electrons or not. -/
example (unscreen : Bool) : ∃ k : ℝ, 0 < k ∧ ∀ v : X 2 → ℝ, center v ≠ (fun _ => 0) →
    (Driver.init eigh2 level2 1e-10 gauss gaussDelta unscreen 1 2 (fun _ _ => 0) duo.H0 (Bounds.springs k) duo.d0).freeEnergy gauss gaussEntropy <
      E eigh2 level2 gauss gaussEntropy (Driver.init eigh2 level2 1e-10 gauss gaussDelta unscreen 1 2 (fun _ _ => 0) duo.H0 (Bounds.springs k) duo.d0) v := by
  have ht := total_nonneg duo 0
  refine ⟨1 / Real.sqrt Real.pi * total duo 0 + 1, by positivity, fun v hv => ?_⟩
  refine C189_reference (B := 1 / Real.sqrt Real.pi) (c := 2 * (1 / Real.sqrt Real.pi * total duo 0 + 1)) 1e-10 unscreen 1 2 (fun _ _ => 0) duo.H0
    (Bounds.springs _) duo.d0 one_pos (fun x => (C36_gauss x).1) C37_gauss gaussDelta_pos gaussDelta_continuous delta_bounds.2 rfl
    (init_externals unscreen _) (by norm_num) (springs_herm _) (fun w => (springs_form _ w).ge) ?_ hv
  show 2 * (1 / Real.sqrt Real.pi) * total duo 0 < _
  linarith

end examples

end Verif.MD.Warm
