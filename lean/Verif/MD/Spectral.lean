import Mathlib.MeasureTheory.Integral.DominatedConvergence
import Mathlib.MeasureTheory.Integral.IntervalIntegral.FundThmCalculus
import Mathlib.Topology.MetricSpace.Sequences
import Mathlib.Analysis.CStarAlgebra.Matrix
import Verif.MD.Call

/-!
# Derivatives of functions of matrices without smooth eigenvectors (for C185)

Eigenvectors of a matrix depending on a parameter, as computed by `np.linalg.eigh`, are in general not even continuous functions of the parameter
(choice of phases, order, basis of degenerate subspaces). Functions of the matrix are differentiable nevertheless.
-/

namespace Verif.MD.Spectral

open Matrix Filter Topology

/-- Quotient of differences; derivative if both arguments coincide. -/
noncomputable def quotient (f f' : ℝ → ℝ) (x y : ℝ) : ℝ := if x = y then f' x else (f x - f y) / (x - y)

theorem quotient_mul (f f' : ℝ → ℝ) (x y : ℝ) : quotient f f' x y * (x - y) = f x - f y := by
  unfold quotient
  split_ifs with h
  · rw [h, sub_self, sub_self, mul_zero]
  · exact div_mul_cancel₀ _ (sub_ne_zero.2 h)

theorem quotient_self (f f' : ℝ → ℝ) (x : ℝ) : quotient f f' x x = f' x := if_pos rfl

theorem quotient_integral {f f' : ℝ → ℝ} (h : ∀ x, HasDerivAt f (f' x) x) (hc : Continuous f') (x y : ℝ) :
    quotient f f' x y = ∫ s in (0 : ℝ)..1, f' (y + s * (x - y)) := by
  unfold quotient
  split_ifs with hxy
  · subst hxy
    simp
  · have h0 : x - y ≠ 0 := sub_ne_zero.2 hxy
    have h1 : ∀ s ∈ Set.uIcc (0 : ℝ) 1, HasDerivAt (fun s => f (y + s * (x - y)) / (x - y)) (f' (y + s * (x - y))) s := by
      intro s _
      have h2 : HasDerivAt (fun s : ℝ => y + s * (x - y)) (x - y) s := by
        simpa using ((hasDerivAt_id s).mul_const (x - y)).const_add y
      refine ((HasDerivAt.comp (h₂ := f) s (h _) h2).div_const (x - y)).congr_deriv ?_
      exact mul_div_cancel_right₀ _ h0
    rw [intervalIntegral.integral_eq_sub_of_hasDerivAt h1 ((hc.comp (by fun_prop)).intervalIntegrable _ _)]
    rw [one_mul, zero_mul, add_zero, add_sub_cancel, sub_div]

theorem quotient_continuous {f f' : ℝ → ℝ} (h : ∀ x, HasDerivAt f (f' x) x) (hc : Continuous f') :
    Continuous fun p : ℝ × ℝ => quotient f f' p.1 p.2 := by
  simp only [quotient_integral h hc]
  refine intervalIntegral.continuous_parametric_intervalIntegral_of_continuous' (f := fun (p : ℝ × ℝ) (s : ℝ) => f' (p.2 + s * (p.1 - p.2))) ?_ 0 1
  exact hc.comp (by fun_prop)

section matrix
variable {ι : Type} [Fintype ι] [DecidableEq ι]

theorem eigen_bound {M U : Matrix ι ι ℂ} {e : ι → ℝ} (hd : M * U = U * diagonal fun n => (e n : ℂ)) (hU : Uᴴ * U = 1) (n : ι) :
    |e n| ≤ ∑ i, ∑ j, ‖M i j‖ := by
  have hu : ∀ i j, ‖U i j‖ ≤ 1 := entry_norm_bound_of_unitary (Matrix.mem_unitaryGroup_iff'.2 hU)
  have h1 : (Uᴴ * (M * U)) n n = (e n : ℂ) := by
    rw [hd, ← Matrix.mul_assoc, hU, Matrix.one_mul, Matrix.diagonal_apply_eq]
  have h2 : |e n| = ‖(Uᴴ * (M * U)) n n‖ := by rw [h1, Complex.norm_real, Real.norm_eq_abs]
  rw [h2, Matrix.mul_apply]
  refine (norm_sum_le _ _).trans (Finset.sum_le_sum fun i _ => ?_)
  rw [Matrix.mul_apply, norm_mul, conjTranspose_apply, norm_star]
  refine (mul_le_of_le_one_left (norm_nonneg _) (hu i n)).trans ((norm_sum_le _ _).trans (Finset.sum_le_sum fun j _ => ?_))
  rw [norm_mul]
  exact mul_le_of_le_one_right (norm_nonneg _) (hu j n)

/-- If a continuous function of eigenvectors, eigenvalues, and further parameters does not depend on the choice of eigenvectors at one point, it
converges when approaching this point, even if the eigenvectors do not. -/
theorem limit {X : Type} [TopologicalSpace X] {M U : ℝ → Matrix ι ι ℂ} {e : ℝ → ι → ℝ} (hd : ∀ t, M t * U t = U t * diagonal fun n => (e t n : ℂ))
    (hU : ∀ t, (U t)ᴴ * U t = 1) {t0 : ℝ} (hM : ∀ i j, ContinuousAt (fun t => M t i j) t0) {p : ℝ → X} {p0 : X} (hp : Tendsto p (𝓝[≠] t0) (𝓝 p0))
    (F : (ι → ι → ℂ) × (ι → ℝ) × X → ℂ) (hF : Continuous F) (L : ℂ)
    (hL : ∀ (V : Matrix ι ι ℂ) (d : ι → ℝ), Vᴴ * V = 1 → M t0 * V = V * diagonal (fun n => (d n : ℂ)) → F (V, d, p0) = L) :
    Tendsto (fun t => F (U t, e t, p t)) (𝓝[≠] t0) (𝓝 L) := by
  refine tendsto_of_subseq_tendsto fun ns hns => ?_
  have hns0 : Tendsto ns atTop (𝓝 t0) := hns.mono_right nhdsWithin_le_nhds
  set R : ℝ := (∑ i, ∑ j, ‖M t0 i j‖) + 1 with hR
  have hR0 : 1 ≤ R := by
    have : 0 ≤ ∑ i, ∑ j, ‖M t0 i j‖ := Finset.sum_nonneg fun i _ => Finset.sum_nonneg fun j _ => norm_nonneg _
    linarith
  have hb : ∀ᶠ k in atTop, (∑ i, ∑ j, ‖M (ns k) i j‖) < R := by
    have h1 : Tendsto (fun t => ∑ i, ∑ j, ‖M t i j‖) (𝓝 t0) (𝓝 (∑ i, ∑ j, ‖M t0 i j‖)) :=
      tendsto_finsetSum _ fun i _ => tendsto_finsetSum _ fun j _ => (hM i j).norm
    exact (h1.comp hns0).eventually (gt_mem_nhds (by rw [hR]; linarith))
  set x : ℕ → (ι → ι → ℂ) × (ι → ℝ) := fun k => (U (ns k), e (ns k)) with hx
  have hxb : ∀ᶠ k in atTop, x k ∈ Metric.closedBall (0 : (ι → ι → ℂ) × (ι → ℝ)) R := by
    filter_upwards [hb] with k hk
    rw [mem_closedBall_zero_iff, hx]
    refine max_le ?_ ?_
    · refine (pi_norm_le_iff_of_nonneg (by linarith)).2 fun i => (pi_norm_le_iff_of_nonneg (by linarith)).2 fun j => ?_
      exact (entry_norm_bound_of_unitary (Matrix.mem_unitaryGroup_iff'.2 (hU (ns k))) i j).trans hR0
    · refine (pi_norm_le_iff_of_nonneg (by linarith)).2 fun n => ?_
      exact (eigen_bound (hd (ns k)) (hU (ns k)) n).trans hk.le
  obtain ⟨⟨V, d⟩, _, φ, hφ, hlim⟩ := tendsto_subseq_of_frequently_bounded Metric.isBounded_closedBall hxb.frequently
  have hl1 : Tendsto (fun k => (U (ns (φ k)) : ι → ι → ℂ)) atTop (𝓝 V) := (continuous_fst.tendsto (V, d)).comp hlim
  have hl2 : Tendsto (fun k => e (ns (φ k))) atTop (𝓝 d) := (continuous_snd.tendsto (V, d)).comp hlim
  have hV : ∀ i j, Tendsto (fun k => U (ns (φ k)) i j) atTop (𝓝 (V i j)) := fun i j => tendsto_pi_nhds.1 (tendsto_pi_nhds.1 hl1 i) j
  have he : ∀ n, Tendsto (fun k => e (ns (φ k)) n) atTop (𝓝 (d n)) := tendsto_pi_nhds.1 hl2
  have hMl : ∀ i j, Tendsto (fun k => M (ns (φ k)) i j) atTop (𝓝 (M t0 i j)) := fun i j =>
    (hM i j).tendsto.comp (hns0.comp hφ.tendsto_atTop)
  have hVV : (Matrix.of V)ᴴ * Matrix.of V = 1 := by
    ext i j
    have h1 : Tendsto (fun k => ((U (ns (φ k)))ᴴ * U (ns (φ k))) i j) atTop (𝓝 (((Matrix.of V)ᴴ * Matrix.of V) i j)) := by
      simp only [Matrix.mul_apply, conjTranspose_apply, Matrix.of_apply]
      exact tendsto_finsetSum _ fun l _ => ((hV l i).star).mul (hV l j)
    simp only [hU] at h1
    exact tendsto_nhds_unique h1 tendsto_const_nhds
  have hMV : M t0 * Matrix.of V = Matrix.of V * diagonal fun n => (d n : ℂ) := by
    ext i j
    have h1 : Tendsto (fun k => (M (ns (φ k)) * U (ns (φ k))) i j) atTop (𝓝 ((M t0 * Matrix.of V) i j)) := by
      simp only [Matrix.mul_apply, Matrix.of_apply]
      exact tendsto_finsetSum _ fun l _ => (hMl i l).mul (hV l j)
    have h2 : Tendsto (fun k => (U (ns (φ k)) * diagonal fun n => (e (ns (φ k)) n : ℂ)) i j) atTop
        (𝓝 ((Matrix.of V * diagonal fun n => (d n : ℂ)) i j)) := by
      simp only [Matrix.mul_diagonal, Matrix.of_apply]
      exact (hV i j).mul ((Complex.continuous_ofReal.tendsto _).comp (he j))
    simp only [hd] at h1
    exact tendsto_nhds_unique h1 h2
  refine ⟨φ, ?_⟩
  have hlast : Tendsto (fun k => ((U (ns (φ k)) : ι → ι → ℂ), e (ns (φ k)), p (ns (φ k)))) atTop (𝓝 (V, d, p0)) := by
    have h1 : Tendsto (fun k => (U (ns (φ k)) : ι → ι → ℂ)) atTop (𝓝 V) := tendsto_pi_nhds.2 fun i => tendsto_pi_nhds.2 fun j => hV i j
    have h2 : Tendsto (fun k => e (ns (φ k))) atTop (𝓝 d) := tendsto_pi_nhds.2 he
    exact h1.prodMk_nhds (h2.prodMk_nhds (hp.comp (hns.comp hφ.tendsto_atTop)))
  have h3 := (hF.tendsto (V, d, p0)).comp hlast
  have h4 : F (V, d, p0) = L := hL (Matrix.of V) d hVV hMV
  rw [h4] at h3
  exact h3

/-- Function of a matrix. -/
noncomputable def fn (f : ℝ → ℝ) (U : Matrix ι ι ℂ) (e : ι → ℝ) : Matrix ι ι ℂ := U * diagonal (fun n => (f (e n) : ℂ)) * Uᴴ

/-- Weighted matrix elements between two bases. -/
noncomputable def weighted (q : ℝ → ℝ → ℝ) (U V D : Matrix ι ι ℂ) (d e : ι → ℝ) : Matrix ι ι ℂ :=
  U * Matrix.of (fun m n => (q (d m) (e n) : ℂ) * (Uᴴ * D * V) m n) * Vᴴ

theorem adjoint_eig {M U : Matrix ι ι ℂ} {d : ι → ℝ} (hU : Uᴴ * U = 1) (h1 : M * U = U * diagonal fun n => (d n : ℂ)) :
    Uᴴ * M = diagonal (fun n => (d n : ℂ)) * Uᴴ := by
  have hU' : U * Uᴴ = 1 := mul_eq_one_comm.1 hU
  calc Uᴴ * M = Uᴴ * M * (U * Uᴴ) := by rw [hU', Matrix.mul_one]
    _ = Uᴴ * (M * U) * Uᴴ := by noncomm_ring
    _ = (Uᴴ * U) * diagonal (fun n => (d n : ℂ)) * Uᴴ := by rw [h1]; noncomm_ring
    _ = _ := by rw [hU, Matrix.one_mul]

/-- Exact change of a function of a matrix. -/
theorem fn_sub (f f' : ℝ → ℝ) {M N U V : Matrix ι ι ℂ} {d e : ι → ℝ} (hU : Uᴴ * U = 1) (hV : Vᴴ * V = 1)
    (h1 : M * U = U * diagonal fun n => (d n : ℂ)) (h2 : N * V = V * diagonal fun n => (e n : ℂ)) :
    fn f V e - fn f U d = weighted (quotient f f') U V (N - M) d e := by
  have hU' : U * Uᴴ = 1 := mul_eq_one_comm.1 hU
  have hV' : V * Vᴴ = 1 := mul_eq_one_comm.1 hV
  have h3 := adjoint_eig hU h1
  have h4 : Uᴴ * (N - M) * V = Uᴴ * V * diagonal (fun n => (e n : ℂ)) - diagonal (fun n => (d n : ℂ)) * (Uᴴ * V) := by
    calc Uᴴ * (N - M) * V = Uᴴ * (N * V) - (Uᴴ * M) * V := by noncomm_ring
      _ = _ := by rw [h2, h3]; noncomm_ring
  have h5 : Matrix.of (fun m n => (quotient f f' (d m) (e n) : ℂ) * (Uᴴ * (N - M) * V) m n) =
      Uᴴ * V * diagonal (fun n => (f (e n) : ℂ)) - diagonal (fun n => (f (d n) : ℂ)) * (Uᴴ * V) := by
    ext m n
    rw [h4]
    simp only [Matrix.of_apply, Matrix.sub_apply, Matrix.mul_diagonal, Matrix.diagonal_mul]
    have := congrArg (fun x : ℝ => (x : ℂ)) (quotient_mul f f' (d m) (e n))
    push_cast at this
    linear_combination -(Uᴴ * V) m n * this
  unfold fn weighted
  rw [h5]
  calc V * diagonal (fun n => (f (e n) : ℂ)) * Vᴴ - U * diagonal (fun n => (f (d n) : ℂ)) * Uᴴ =
        (U * Uᴴ) * V * diagonal (fun n => (f (e n) : ℂ)) * Vᴴ - U * diagonal (fun n => (f (d n) : ℂ)) * Uᴴ * (V * Vᴴ) := by
          rw [hU', hV', Matrix.one_mul, Matrix.mul_one]
    _ = _ := by noncomm_ring

/-- The choice of eigenvectors on one side does not matter. -/
theorem weighted_any (q : ℝ → ℝ → ℝ) {M U V : Matrix ι ι ℂ} {d e : ι → ℝ} (D : Matrix ι ι ℂ) (hU : Uᴴ * U = 1) (hV : Vᴴ * V = 1)
    (h1 : M * U = U * diagonal fun n => (d n : ℂ)) (h2 : M * V = V * diagonal fun n => (e n : ℂ)) :
    weighted q U V D d e = weighted q U U D d d := by
  have hU' : U * Uᴴ = 1 := mul_eq_one_comm.1 hU
  have hV' : V * Vᴴ = 1 := mul_eq_one_comm.1 hV
  have h3 := adjoint_eig hV h2
  have hS : ∀ n p, e n ≠ d p → (Vᴴ * U) n p = 0 := by
    intro n p hne
    have h4 : diagonal (fun n => (e n : ℂ)) * (Vᴴ * U) = Vᴴ * U * diagonal fun n => (d n : ℂ) := by
      calc diagonal (fun n => (e n : ℂ)) * (Vᴴ * U) = (diagonal (fun n => (e n : ℂ)) * Vᴴ) * U := by noncomm_ring
        _ = Vᴴ * (M * U) := by rw [← h3]; noncomm_ring
        _ = _ := by rw [h1]; noncomm_ring
    have h5 := congrFun (congrFun h4 n) p
    rw [Matrix.diagonal_mul, Matrix.mul_diagonal] at h5
    have h6 : ((e n : ℂ) - d p) * (Vᴴ * U) n p = 0 := by rw [sub_mul, h5]; ring
    rcases mul_eq_zero.1 h6 with h7 | h7
    · exact absurd (by exact_mod_cast sub_eq_zero.1 h7) hne
    · exact h7
  have key : Matrix.of (fun m n => (q (d m) (e n) : ℂ) * (Uᴴ * D * V) m n) * (Vᴴ * U) =
      Matrix.of fun m n => (q (d m) (d n) : ℂ) * (Uᴴ * D * U) m n := by
    ext m p
    rw [Matrix.mul_apply]
    simp only [Matrix.of_apply]
    have h8 : Uᴴ * D * U = Uᴴ * D * V * (Vᴴ * U) := by
      calc Uᴴ * D * U = Uᴴ * D * (V * Vᴴ) * U := by rw [hV', Matrix.mul_one]
        _ = _ := by noncomm_ring
    rw [h8, Matrix.mul_apply, Finset.mul_sum]
    refine Finset.sum_congr rfl fun n _ => ?_
    by_cases hn : e n = d p
    · rw [hn]
      ring
    · rw [hS n p hn]
      ring
  unfold weighted
  rw [← key]
  calc U * Matrix.of (fun m n => (q (d m) (e n) : ℂ) * (Uᴴ * D * V) m n) * Vᴴ =
        U * Matrix.of (fun m n => (q (d m) (e n) : ℂ) * (Uᴴ * D * V) m n) * Vᴴ * (U * Uᴴ) := by rw [hU', Matrix.mul_one]
    _ = _ := by noncomm_ring

section family
variable {M U : ℝ → Matrix ι ι ℂ} {e : ℝ → ι → ℝ} {t0 : ℝ} {M' : Matrix ι ι ℂ}

/-- Derivative of a function of a matrix (Daletskii-Krein theorem), for any choice of eigenvectors. -/
theorem fn_hasDerivAt {f f' : ℝ → ℝ} (hf : ∀ x, HasDerivAt f (f' x) x) (hc : Continuous f') (hd : ∀ t, M t * U t = U t * diagonal fun n => (e t n : ℂ))
    (hU : ∀ t, (U t)ᴴ * U t = 1) (hM : ∀ i j, HasDerivAt (fun t => M t i j) (M' i j) t0) (a b : ι) :
    HasDerivAt (fun t => fn f (U t) (e t) a b) (weighted (quotient f f') (U t0) (U t0) M' (e t0) (e t0) a b) t0 := by
  rw [hasDerivAt_iff_tendsto_slope]
  set p : ℝ → ι → ι → ℂ := fun t i j => slope (fun t => M t i j) t0 t with hp
  have hp0 : Tendsto p (𝓝[≠] t0) (𝓝 (M' : ι → ι → ℂ)) :=
    tendsto_pi_nhds.2 fun i => tendsto_pi_nhds.2 fun j => hasDerivAt_iff_tendsto_slope.1 (hM i j)
  have key := limit hd hU (fun i j => (hM i j).continuousAt) hp0
    (fun x => weighted (quotient f f') (U t0) (Matrix.of x.1) (Matrix.of x.2.2) (e t0) x.2.1 a b) ?_
    (weighted (quotient f f') (U t0) (U t0) M' (e t0) (e t0) a b) ?_
  · refine key.congr' ?_
    filter_upwards [self_mem_nhdsWithin] with t ht
    have h1 := congrFun (congrFun (fn_sub f f' (hU t0) (hU t) (hd t0) (hd t)) a) b
    rw [slope_def_module, ← Matrix.sub_apply, h1]
    have h2 : (Matrix.of (p t) : Matrix ι ι ℂ) = (t - t0)⁻¹ • (M t - M t0) := by
      ext i j
      rw [Matrix.of_apply, hp, Matrix.smul_apply, Matrix.sub_apply]
      exact slope_def_module _ _ _
    show weighted (quotient f f') (U t0) (Matrix.of (U t)) (Matrix.of (p t)) (e t0) (e t) a b = _
    rw [h2]
    have h3 : weighted (quotient f f') (U t0) (Matrix.of (U t)) ((t - t0)⁻¹ • (M t - M t0)) (e t0) (e t) =
        (t - t0)⁻¹ • weighted (quotient f f') (U t0) (U t) (M t - M t0) (e t0) (e t) := by
      unfold weighted
      have h4 : (Matrix.of fun m n => (quotient f f' (e t0 m) (e t n) : ℂ) * ((U t0)ᴴ * ((t - t0)⁻¹ • (M t - M t0)) * Matrix.of (U t)) m n) =
          (t - t0)⁻¹ • Matrix.of fun m n => (quotient f f' (e t0 m) (e t n) : ℂ) * ((U t0)ᴴ * (M t - M t0) * U t) m n := by
        ext m n
        rw [Matrix.mul_smul, Matrix.smul_mul]
        simp only [Matrix.of_apply, Matrix.smul_apply]
        exact mul_smul_comm _ _ _
      rw [h4, Matrix.mul_smul, Matrix.smul_mul]
      rfl
    rw [h3, Matrix.smul_apply]
  · have hq := quotient_continuous hf hc
    unfold weighted
    simp only [Matrix.mul_apply, Matrix.of_apply, conjTranspose_apply]
    refine continuous_finsetSum _ fun n _ => Continuous.mul (continuous_finsetSum _ fun m _ => continuous_const.mul (Continuous.mul ?_ ?_)) ?_
    · refine Complex.continuous_ofReal.comp (hq.comp (f := fun x : (ι → ι → ℂ) × (ι → ℝ) × (ι → ι → ℂ) => (e t0 m, x.2.1 n)) ?_)
      fun_prop
    · fun_prop
    · fun_prop
  · intro V d hV hMV
    exact congrFun (congrFun (weighted_any (quotient f f') M' (hU t0) hV (hd t0) hMV) a) b

theorem fn_trace (f : ℝ → ℝ) {U : Matrix ι ι ℂ} {e : ι → ℝ} (hU : Uᴴ * U = 1) : (fn f U e).trace = ((∑ n, f (e n) : ℝ) : ℂ) := by
  unfold fn
  rw [Matrix.trace_mul_cycle, hU, Matrix.one_mul, Matrix.trace_diagonal]
  push_cast
  rfl

theorem weighted_trace (q : ℝ → ℝ → ℝ) (g : Matrix ι ι ℂ) (U D : Matrix ι ι ℂ) (d : ι → ℝ) :
    (g * weighted q U U D d d).trace = ∑ m, ∑ n, (q (d m) (d n) : ℂ) * (Uᴴ * D * U) m n * (Uᴴ * g * U) n m := by
  unfold weighted
  have : (g * (U * Matrix.of (fun m n => (q (d m) (d n) : ℂ) * (Uᴴ * D * U) m n) * Uᴴ)).trace =
      (Matrix.of (fun m n => (q (d m) (d n) : ℂ) * (Uᴴ * D * U) m n) * (Uᴴ * g * U)).trace := by
    calc (g * (U * Matrix.of (fun m n => (q (d m) (d n) : ℂ) * (Uᴴ * D * U) m n) * Uᴴ)).trace =
          ((g * U) * (Matrix.of (fun m n => (q (d m) (d n) : ℂ) * (Uᴴ * D * U) m n) * Uᴴ)).trace := by congr 1; noncomm_ring
      _ = ((Matrix.of (fun m n => (q (d m) (d n) : ℂ) * (Uᴴ * D * U) m n) * Uᴴ) * (g * U)).trace := Matrix.trace_mul_comm _ _
      _ = _ := by congr 1; noncomm_ring
  rw [this]
  unfold Matrix.trace
  simp only [Matrix.diag_apply, Matrix.mul_apply (M := Matrix.of _), Matrix.of_apply]

/-- Derivative of the trace of the product with a constant matrix. -/
theorem trace_hasDerivAt {f f' : ℝ → ℝ} (hf : ∀ x, HasDerivAt f (f' x) x) (hc : Continuous f') (hd : ∀ t, M t * U t = U t * diagonal fun n => (e t n : ℂ))
    (hU : ∀ t, (U t)ᴴ * U t = 1) (hM : ∀ i j, HasDerivAt (fun t => M t i j) (M' i j) t0) (g : Matrix ι ι ℂ) :
    HasDerivAt (fun t => (g * fn f (U t) (e t)).trace)
      (∑ m, ∑ n, (quotient f f' (e t0 m) (e t0 n) : ℂ) * ((U t0)ᴴ * M' * U t0) m n * ((U t0)ᴴ * g * U t0) n m) t0 := by
  rw [← weighted_trace]
  unfold Matrix.trace
  simp only [Matrix.diag_apply, Matrix.mul_apply (M := g)]
  exact HasDerivAt.fun_sum fun a _ => HasDerivAt.fun_sum fun b _ => (fn_hasDerivAt hf hc hd hU hM b a).const_mul _

/-- Derivative of the sum of a function over all eigenvalues. -/
theorem sum_hasDerivAt {f f' : ℝ → ℝ} (hf : ∀ x, HasDerivAt f (f' x) x) (hc : Continuous f') (hd : ∀ t, M t * U t = U t * diagonal fun n => (e t n : ℂ))
    (hU : ∀ t, (U t)ᴴ * U t = 1) (hM : ∀ i j, HasDerivAt (fun t => M t i j) (M' i j) t0) :
    HasDerivAt (fun t => ∑ n, f (e t n)) (∑ n, f' (e t0 n) * (((U t0)ᴴ * M' * U t0) n n).re) t0 := by
  have h1 := trace_hasDerivAt hf hc hd hU hM 1
  simp only [Matrix.one_mul, fn_trace f (hU _), Matrix.mul_one, hU] at h1
  have h2 := Complex.reCLM.hasFDerivAt.comp_hasDerivAt t0 h1
  refine h2.congr_deriv ?_
  rw [Complex.reCLM_apply, Complex.re_sum]
  refine Finset.sum_congr rfl fun m _ => ?_
  rw [Finset.sum_eq_single m (fun n _ hn => by rw [Matrix.one_apply_ne hn, mul_zero]) (fun h => absurd (Finset.mem_univ _) h), Matrix.one_apply_eq, mul_one,
    quotient_self, Complex.re_ofReal_mul]

end family
end matrix

end Verif.MD.Spectral
