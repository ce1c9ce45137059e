import Mathlib.Analysis.Calculus.Deriv.MeanValue
import Verif.MD.Spectral
import Verif.MD.Bounds

/-!
# Forces and Hessian are derivatives of the free energy for any diagonalization routine (C185)

C89, C134, C166, and C167 relate `free_energy`, `jacobian`, and `hessian` of `elphmod.md.Driver` along paths along which eigenvectors can be chosen
as differentiable functions. Here, only displacements are required to be differentiable: Eigenvectors, their order, and bases of degenerate subspaces
may be arbitrary for every structure. The model is that of `MD/Model.lean` and `MD/Optimize.lean`.
-/

namespace Verif.MD.Differentiable

open Verif.Diag
open Verif.MD.Optimize
open Verif.MD.Bounds
open Verif.MD.Spectral
open Matrix Filter Topology

variable {n1 n2 n3 nb nat nq : Nat}

section state
variable [NeZero n1] [NeZero n2] [NeZero n3] [NeZero nb] {occ delta entropy : ℝ → ℝ} {s : Driver n1 n2 n3 nb nat nq} {u : ℝ → X nat → ℝ}
  {e : ℝ → Mesh n1 n2 n3 → Fin nb → ℝ} {U : ℝ → Mesh n1 n2 n3 → Matrix (Fin nb) (Fin nb) ℂ} {mu : ℝ → ℝ} {t0 : ℝ} {u' : X nat → ℝ}

/-- Occupation as a function of the energy. -/
noncomputable def phi (occ : ℝ → ℝ) (kT x : ℝ) : ℝ := occ (x / kT)

/-- Its derivative. -/
noncomputable def phi' (delta : ℝ → ℝ) (kT x : ℝ) : ℝ := -(delta (x / kT) / kT)

theorem phi_hasDerivAt (ho : ∀ x, HasDerivAt occ (-delta x) x) (kT nu x : ℝ) :
    HasDerivAt (fun x => phi occ kT (x - nu)) (phi' delta kT (x - nu)) x := by
  have h1 : HasDerivAt (fun x : ℝ => (x - nu) / kT) (1 / kT) x := ((hasDerivAt_id x).sub_const nu).div_const kT
  refine (HasDerivAt.comp (h₂ := occ) x (ho _) h1).congr_deriv ?_
  unfold phi'
  ring

theorem phi'_continuous (hc : Continuous delta) (kT nu : ℝ) : Continuous fun x => phi' delta kT (x - nu) := by
  unfold phi'
  exact ((hc.comp (by fun_prop)).div_const _).neg

theorem occ_anti (ho : ∀ x, HasDerivAt occ (-delta x) x) (hdelta : ∀ x, 0 < delta x) : StrictAnti occ :=
  strictAnti_of_deriv_neg fun x => by rw [(ho x).deriv]; linarith [hdelta x]

theorem hamiltonian_hasDerivAt (du : ∀ x, HasDerivAt (fun t => u t x) (u' x) t0) (k : Mesh n1 n2 n3) (a b : Fin nb) :
    HasDerivAt (fun t => (s.move (u t) (e t) (U t) (mu t)).H k a b) (dH s u' k a b) t0 := by
  unfold Driver.H Driver.move dH
  simp only [Matrix.add_apply, Matrix.sum_apply, Matrix.smul_apply, smul_eq_mul]
  refine HasDerivAt.const_add _ (HasDerivAt.fun_sum fun x _ => ?_)
  exact (hasDerivAt_ofReal (du x)).mul_const _

theorem number_eq (diag : ∀ t, Diagonalized occ (s.move (u t) (e t) (U t) (mu t))) (t : ℝ) :
    ∑ k, ∑ n, phi occ s.kT (e t k n) = ∑ k, ∑ n, phi occ s.kT (e t0 k n) := by
  have hN : (0 : ℝ) < 2 / (n1 * n2 * n3 : Nat) := by
    have : 0 < n1 * n2 * n3 := Nat.mul_pos (Nat.mul_pos (NeZero.pos n1) (NeZero.pos n2)) (NeZero.pos n3)
    exact div_pos two_pos (by exact_mod_cast this)
  have hn := (diag t).number.trans (diag t0).number.symm
  exact mul_left_cancel₀ hN.ne' hn

/-- Number of electrons for a fixed chemical potential. -/
theorem count_hasDerivAt (diag : ∀ t, Diagonalized occ (s.move (u t) (e t) (U t) (mu t))) (du : ∀ x, HasDerivAt (fun t => u t x) (u' x) t0)
    (ho : ∀ x, HasDerivAt occ (-delta x) x) (hc : Continuous delta) (nu : ℝ) :
    HasDerivAt (fun t => ∑ k, ∑ n, phi occ s.kT (e t k n + mu t - nu))
      (∑ k, ∑ n, phi' delta s.kT (e t0 k n + mu t0 - nu) * (((U t0 k)ᴴ * dH s u' k * U t0 k) n n).re) t0 :=
  HasDerivAt.fun_sum fun k _ => sum_hasDerivAt (f := fun x => phi occ s.kT (x - nu)) (f' := fun x => phi' delta s.kT (x - nu))
    (M := fun t => (s.move (u t) (e t) (U t) (mu t)).H k) (U := fun t => U t k) (e := fun t n => e t k n + mu t)
    (phi_hasDerivAt ho s.kT nu) (phi'_continuous hc s.kT nu) (fun t => (diag t).eig k) (fun t => (diag t).unitary k)
    (fun i j => hamiltonian_hasDerivAt du k i j)

theorem count_mono (hocc : StrictAnti occ) (hkT : 0 < s.kT) (x : Mesh n1 n2 n3 → Fin nb → ℝ) {a b : ℝ} (hab : a < b) :
    (∑ k, ∑ n, phi occ s.kT (x k n - a)) < ∑ k, ∑ n, phi occ s.kT (x k n - b) := by
  refine Finset.sum_lt_sum_of_nonempty Finset.univ_nonempty fun k _ => Finset.sum_lt_sum_of_nonempty
    ⟨⟨0, NeZero.pos nb⟩, Finset.mem_univ _⟩ fun n _ => hocc ?_
  exact div_lt_div_of_pos_right (by linarith) hkT

/-- The chemical potential is continuous. -/
theorem level_tendsto (diag : ∀ t, Diagonalized occ (s.move (u t) (e t) (U t) (mu t))) (du : ∀ x, HasDerivAt (fun t => u t x) (u' x) t0)
    (ho : ∀ x, HasDerivAt occ (-delta x) x) (hdelta : ∀ x, 0 < delta x) (hc : Continuous delta) (hkT : 0 < s.kT) : Tendsto mu (𝓝 t0) (𝓝 (mu t0)) := by
  have hocc := occ_anti ho hdelta
  have hs : ∀ t, ∑ k, ∑ n, phi occ s.kT (e t k n + mu t - mu t) = ∑ k, ∑ n, phi occ s.kT (e t0 k n + mu t0 - mu t0) := by
    intro t
    simp only [add_sub_cancel_right]
    exact number_eq diag t
  refine tendsto_order.2 ⟨fun a ha => ?_, fun a ha => ?_⟩
  · have h1 := count_mono (s := s) hocc hkT (fun k n => e t0 k n + mu t0) ha
    filter_upwards [(count_hasDerivAt diag du ho hc a).continuousAt.tendsto.eventually (gt_mem_nhds h1)] with t ht
    by_contra hn
    rw [← hs t] at ht
    rcases (not_lt.1 hn).eq_or_lt with h2 | h2
    · rw [h2] at ht
      exact lt_irrefl _ ht
    · exact lt_asymm ht (count_mono (s := s) hocc hkT (fun k n => e t k n + mu t) h2)
  · have h1 := count_mono (s := s) hocc hkT (fun k n => e t0 k n + mu t0) ha
    filter_upwards [(count_hasDerivAt diag du ho hc a).continuousAt.tendsto.eventually (lt_mem_nhds h1)] with t ht
    by_contra hn
    rw [← hs t] at ht
    rcases (not_lt.1 hn).eq_or_lt with h2 | h2
    · rw [h2] at ht
      exact lt_irrefl _ ht
    · exact lt_asymm ht (count_mono (s := s) hocc hkT (fun k n => e t k n + mu t) h2)

/-- Density of states. -/
noncomputable def dos (delta : ℝ → ℝ) (kT : ℝ) (e : Mesh n1 n2 n3 → Fin nb → ℝ) : ℝ := ∑ k, ∑ n, delta (e k n / kT) / kT

/-- Change of the chemical potential. -/
noncomputable def level' (delta : ℝ → ℝ) (s : Driver n1 n2 n3 nb nat nq) (u' : X nat → ℝ) (e : Mesh n1 n2 n3 → Fin nb → ℝ)
    (U : Mesh n1 n2 n3 → Matrix (Fin nb) (Fin nb) ℂ) : ℝ :=
  (∑ k, ∑ n, delta (e k n / s.kT) / s.kT * (((U k)ᴴ * dH s u' k * U k) n n).re) / dos delta s.kT e

theorem dos_pos (hdelta : ∀ x, 0 < delta x) {kT : ℝ} (hkT : 0 < kT) (e : Mesh n1 n2 n3 → Fin nb → ℝ) : 0 < dos delta kT e :=
  Finset.sum_pos (fun _ _ => Finset.sum_pos (fun _ _ => div_pos (hdelta _) hkT) ⟨⟨0, NeZero.pos nb⟩, Finset.mem_univ _⟩) Finset.univ_nonempty

/-- The chemical potential is differentiable. -/
theorem level_hasDerivAt (diag : ∀ t, Diagonalized occ (s.move (u t) (e t) (U t) (mu t))) (du : ∀ x, HasDerivAt (fun t => u t x) (u' x) t0)
    (ho : ∀ x, HasDerivAt occ (-delta x) x) (hdelta : ∀ x, 0 < delta x) (hc : Continuous delta) (hkT : 0 < s.kT) :
    HasDerivAt mu (level' delta s u' (e t0) (U t0)) t0 := by
  have hmu := (level_tendsto diag du ho hdelta hc hkT).mono_left (nhdsWithin_le_nhds (s := {t0}ᶜ))
  set q := quotient (phi occ s.kT) (phi' delta s.kT) with hq
  have hphi : ∀ x, HasDerivAt (phi occ s.kT) (phi' delta s.kT x) x := fun x => by simpa only [sub_zero] using phi_hasDerivAt ho s.kT 0 x
  have hphic : Continuous (phi' delta s.kT) := by simpa only [sub_zero] using phi'_continuous hc s.kT 0
  have hqc := quotient_continuous hphi hphic
  set A : ℝ → ℝ := fun t => ∑ k, ∑ n, q (e t k n + mu t - mu t) (e t k n + mu t - mu t0) with hA
  have hA0 : Tendsto A (𝓝[≠] t0) (𝓝 (-dos delta s.kT (e t0))) := by
    have h1 : -dos delta s.kT (e t0) = ∑ k, ∑ n, phi' delta s.kT (e t0 k n + mu t0 - mu t0) := by
      unfold dos phi'
      simp only [Finset.sum_neg_distrib, add_sub_cancel_right]
    rw [h1]
    refine tendsto_finsetSum _ fun k _ => ?_
    have h2 := limit (M := fun t => (s.move (u t) (e t) (U t) (mu t)).H k) (U := fun t => U t k) (e := fun t n => e t k n + mu t)
      (fun t => (diag t).eig k) (fun t => (diag t).unitary k) (fun i j => (hamiltonian_hasDerivAt du k i j).continuousAt) hmu
      (fun x => ((∑ n, q (x.2.1 n - x.2.2) (x.2.1 n - mu t0) : ℝ) : ℂ)) ?_
      ((∑ n, phi' delta s.kT (e t0 k n + mu t0 - mu t0) : ℝ) : ℂ) ?_
    · have h3 := (Complex.continuous_re.tendsto _).comp h2
      simpa only [Function.comp_def, Complex.ofReal_re] using h3
    · refine Complex.continuous_ofReal.comp (continuous_finsetSum _ fun n _ => ?_)
      exact hqc.comp (f := fun x : (Fin nb → Fin nb → ℂ) × (Fin nb → ℝ) × ℝ => (x.2.1 n - x.2.2, x.2.1 n - mu t0)) (by fun_prop)
    · intro V d hV hd
      have h4 := trace_any _ _ _ _ _ hV ((diag t0).unitary k) hd ((diag t0).eig k) fun x => phi' delta s.kT (x - mu t0)
      simp only [hq, quotient_self]
      rw [h4]
      rfl
  have hS := hasDerivAt_iff_tendsto_slope.1 (count_hasDerivAt diag du ho hc (mu t0))
  have hd := dos_pos hdelta hkT (e t0)
  have hne : ∀ᶠ t in 𝓝[≠] t0, A t < 0 := hA0.eventually (gt_mem_nhds (by linarith))
  rw [hasDerivAt_iff_tendsto_slope]
  have key := hS.div hA0 (by linarith)
  have e1 : (∑ k, ∑ n, phi' delta s.kT (e t0 k n + mu t0 - mu t0) * (((U t0 k)ᴴ * dH s u' k * U t0 k) n n).re) / -dos delta s.kT (e t0) =
      level' delta s u' (e t0) (U t0) := by
    unfold level' phi'
    simp only [add_sub_cancel_right, neg_mul, Finset.sum_neg_distrib]
    rw [neg_div_neg_eq]
  rw [e1] at key
  refine key.congr' ?_
  filter_upwards [hne] with t ht
  simp only [Pi.div_apply]
  rw [div_eq_iff ht.ne, slope_def_field, slope_def_field]
  have h5 : (mu t - mu t0) * A t = (∑ k, ∑ n, phi occ s.kT (e t k n + mu t - mu t0)) - ∑ k, ∑ n, phi occ s.kT (e t0 k n + mu t0 - mu t0) := by
    have h6 : ∑ k, ∑ n, phi occ s.kT (e t0 k n + mu t0 - mu t0) = ∑ k, ∑ n, phi occ s.kT (e t k n + mu t - mu t) := by
      simp only [add_sub_cancel_right]
      exact (number_eq diag t).symm
    rw [h6, hA, ← Finset.sum_sub_distrib, Finset.mul_sum]
    refine Finset.sum_congr rfl fun k _ => ?_
    rw [← Finset.sum_sub_distrib, Finset.mul_sum]
    refine Finset.sum_congr rfl fun n _ => ?_
    have := quotient_mul (phi occ s.kT) (phi' delta s.kT) (e t k n + mu t - mu t) (e t k n + mu t - mu t0)
    rw [← hq] at this
    linarith
  rw [← h5]
  ring

/-- Hamiltonian relative to the chemical potential. -/
theorem shifted_eig (diag : ∀ t, Diagonalized occ (s.move (u t) (e t) (U t) (mu t))) (k : Mesh n1 n2 n3) (t : ℝ) :
    ((s.move (u t) (e t) (U t) (mu t)).H k - (mu t : ℂ) • (1 : Matrix (Fin nb) (Fin nb) ℂ)) * U t k = U t k * diagonal fun n => (e t k n : ℂ) := by
  have h1 : (s.move (u t) (e t) (U t) (mu t)).H k * U t k = U t k * diagonal fun n => ((e t k n + mu t : ℝ) : ℂ) := (diag t).eig k
  rw [Matrix.sub_mul, h1, Matrix.smul_mul, Matrix.one_mul]
  ext i j
  rw [Matrix.sub_apply, Matrix.smul_apply, Matrix.mul_diagonal, Matrix.mul_diagonal, smul_eq_mul]
  push_cast
  ring

theorem shifted_hasDerivAt (diag : ∀ t, Diagonalized occ (s.move (u t) (e t) (U t) (mu t))) (du : ∀ x, HasDerivAt (fun t => u t x) (u' x) t0)
    (ho : ∀ x, HasDerivAt occ (-delta x) x) (hdelta : ∀ x, 0 < delta x) (hc : Continuous delta) (hkT : 0 < s.kT) (k : Mesh n1 n2 n3) (i j : Fin nb) :
    HasDerivAt (fun t => ((s.move (u t) (e t) (U t) (mu t)).H k - (mu t : ℂ) • (1 : Matrix (Fin nb) (Fin nb) ℂ)) i j)
      ((dH s u' k - (level' delta s u' (e t0) (U t0) : ℂ) • (1 : Matrix (Fin nb) (Fin nb) ℂ)) i j) t0 := by
  simp only [Matrix.sub_apply, Matrix.smul_apply, smul_eq_mul]
  exact (hamiltonian_hasDerivAt du k i j).sub ((hasDerivAt_ofReal (level_hasDerivAt diag du ho hdelta hc hkT)).mul_const _)

omit [NeZero nb] in
theorem shifted_band (V D : Matrix (Fin nb) (Fin nb) ℂ) (hV : Vᴴ * V = 1) (c : ℂ) (m n : Fin nb) :
    (Vᴴ * (D - c • (1 : Matrix (Fin nb) (Fin nb) ℂ)) * V) m n = (Vᴴ * D * V) m n - if m = n then c else 0 := by
  have : Vᴴ * (D - c • (1 : Matrix (Fin nb) (Fin nb) ℂ)) * V = Vᴴ * D * V - c • (1 : Matrix (Fin nb) (Fin nb) ℂ) := by
    rw [Matrix.mul_sub, Matrix.sub_mul, Matrix.mul_smul, Matrix.smul_mul, Matrix.mul_one, hV]
  rw [this, Matrix.sub_apply, Matrix.smul_apply, Matrix.one_apply, smul_eq_mul, mul_ite, mul_one, mul_zero]

/-- The electronic force in terms of functions of the Hamiltonian. -/
theorem force_eq (occ : ℝ → ℝ) (kT : ℝ) (e : Mesh n1 n2 n3 → Fin nb → ℝ) (U : Mesh n1 n2 n3 → Matrix (Fin nb) (Fin nb) ℂ)
    (g : Mesh n1 n2 n3 → Matrix (Fin nb) (Fin nb) ℂ) :
    firstOrderU kT occ e U g = 2 / (n1 * n2 * n3 : Nat) * ∑ k, (g k * fn (phi occ kT) (U k) (e k)).trace := by
  refine (firstOrderU_eq kT occ e U g).trans ?_
  congr 1
  refine Finset.sum_congr rfl fun k _ => ?_
  have h1 : (g k * fn (phi occ kT) (U k) (e k)).trace = (diagonal (fun n => (phi occ kT (e k n) : ℂ)) * ((U k)ᴴ * g k * U k)).trace := by
    unfold fn
    calc (g k * (U k * diagonal (fun n => (phi occ kT (e k n) : ℂ)) * (U k)ᴴ)).trace =
          ((g k * U k) * (diagonal (fun n => (phi occ kT (e k n) : ℂ)) * (U k)ᴴ)).trace := by congr 1; noncomm_ring
      _ = ((diagonal (fun n => (phi occ kT (e k n) : ℂ)) * (U k)ᴴ) * (g k * U k)).trace := Matrix.trace_mul_comm _ _
      _ = _ := by congr 1; noncomm_ring
  rw [h1]
  unfold Matrix.trace
  simp only [Matrix.diag_apply, Matrix.diagonal_mul]
  rfl

/-- Derivative of the free energy; eigenvectors are arbitrary for every structure. -/
theorem state_gradient (diag : ∀ t, Diagonalized occ (s.move (u t) (e t) (U t) (mu t))) (du : ∀ x, HasDerivAt (fun t => u t x) (u' x) t0)
    (ho : ∀ x, HasDerivAt occ (-delta x) x) (hs : ∀ x, HasDerivAt entropy (-x * delta x) x) (hdelta : ∀ x, 0 < delta x) (hc : Continuous delta)
    (hkT : 0 < s.kT) (hC : ∀ x y, (s.C0 0 x y).re = (s.C0 0 y x).re) :
    HasDerivAt (fun t => (s.move (u t) (e t) (U t) (mu t)).freeEnergy occ entropy)
      (∑ x, (s.move (u t0) (e t0) (U t0) (mu t0)).jacobian occ x * u' x) t0 := by
  set N : ℝ := 2 / (n1 * n2 * n3 : Nat) with hN
  set mu' := level' delta s u' (e t0) (U t0) with hmu'
  have dmu : HasDerivAt mu mu' t0 := level_hasDerivAt diag du ho hdelta hc hkT
  set psi : ℝ → ℝ := fun x => occ (x / s.kT) * x - s.kT * entropy (x / s.kT) with hpsi
  have hpsi' : ∀ x, HasDerivAt psi (phi occ s.kT x) x := by
    intro x
    have h1 : HasDerivAt (fun x : ℝ => x / s.kT) (1 / s.kT) x := (hasDerivAt_id x).div_const s.kT
    have h2 := HasDerivAt.comp (h₂ := occ) x (ho _) h1
    have h3 := HasDerivAt.comp (h₂ := entropy) x (hs _) h1
    refine ((h2.mul (hasDerivAt_id x)).sub (h3.const_mul s.kT)).congr_deriv ?_
    unfold phi
    simp only [Function.comp_def, id]
    field_simp
    ring
  have hphic : Continuous (phi occ s.kT) := by
    have h0 : ∀ x, HasDerivAt (phi occ s.kT) (phi' delta s.kT x) x := fun x => by simpa only [sub_zero] using phi_hasDerivAt ho s.kT 0 x
    exact continuous_iff_continuousAt.2 fun x => (h0 x).continuousAt
  have h1 : HasDerivAt (fun t => ∑ k, ∑ n, psi (e t k n))
      (∑ k, ∑ n, phi occ s.kT (e t0 k n) * ((((U t0 k)ᴴ * dH s u' k * U t0 k) n n).re - mu')) t0 := by
    refine HasDerivAt.fun_sum fun k _ => ?_
    refine (sum_hasDerivAt hpsi' hphic (fun t => shifted_eig diag k t) (fun t => (diag t).unitary k)
      (fun i j => shifted_hasDerivAt diag du ho hdelta hc hkT k i j)).congr_deriv ?_
    refine Finset.sum_congr rfl fun n _ => ?_
    have h2 := shifted_band (U t0 k) (dH s u' k) ((diag t0).unitary k) (mu' : ℂ) n n
    rw [if_pos rfl] at h2
    rw [h2, Complex.sub_re, Complex.ofReal_re]
  have h3 : HasDerivAt (fun τ => ∑ x, ∑ y, u τ x * (s.C0 0 x y).re * u τ y)
      (∑ x, ∑ y, (u' x * (s.C0 0 x y).re * u t0 y + u t0 x * (s.C0 0 x y).re * u' y)) t0 :=
    HasDerivAt.fun_sum fun x _ => HasDerivAt.fun_sum fun y _ => ((du x).mul_const _).mul (du y)
  have h4 : HasDerivAt (fun τ => ∑ x, s.F0 x * u τ x) (∑ x, s.F0 x * u' x) t0 :=
    HasDerivAt.fun_sum fun x _ => (du x).const_mul _
  have h5 := (((h1.const_mul N).add (dmu.mul_const s.n)).add (h3.const_mul 0.5)).add h4
  have e0 : (fun t => (s.move (u t) (e t) (U t) (mu t)).freeEnergy occ entropy) = fun t => N * (∑ k, ∑ n, psi (e t k n)) + mu t * s.n +
      0.5 * (∑ x, ∑ y, u t x * (s.C0 0 x y).re * u t y) + ∑ x, s.F0 x * u t x := by
    funext t
    unfold Driver.freeEnergy Driver.move
    simp only [hpsi, Finset.sum_sub_distrib, ← Finset.mul_sum]
    ring
  rw [e0]
  refine h5.congr_deriv ?_
  have hnum : N * (∑ k, ∑ n, phi occ s.kT (e t0 k n)) = s.n := (diag t0).number
  have hforce : N * (∑ k, ∑ n, phi occ s.kT (e t0 k n) * ((((U t0 k)ᴴ * dH s u' k * U t0 k) n n).re - mu')) + mu' * s.n =
      ∑ x, (firstOrderU s.kT occ (e t0) (U t0) (s.d0 0 x)).re * u' x := by
    have h6 : ∀ x, (firstOrderU s.kT occ (e t0) (U t0) (s.d0 0 x)).re * u' x =
        N * ∑ k, ∑ n, phi occ s.kT (e t0 k n) * ((band s (U t0) x k n n * (u' x : ℂ)).re) := by
      intro x
      have h7 := congrArg Complex.re (firstOrderU_eq s.kT occ (e t0) (U t0) (s.d0 0 x))
      have h8 : (2 / ((n1 * n2 * n3 : Nat) : ℂ)) = ((N : ℝ) : ℂ) := by rw [hN]; push_cast; rfl
      rw [h8, Complex.re_ofReal_mul, Complex.re_sum] at h7
      rw [h7, mul_assoc, Finset.sum_mul]
      congr 1
      refine Finset.sum_congr rfl fun k _ => ?_
      rw [Complex.re_sum, Finset.sum_mul]
      refine Finset.sum_congr rfl fun n _ => ?_
      rw [Complex.re_ofReal_mul, Complex.re_mul_ofReal, mul_assoc]
      rfl
    rw [Finset.sum_congr rfl fun x _ => h6 x, ← Finset.mul_sum, ← hnum]
    conv_rhs => rw [Finset.sum_comm]
    have h9 : ∀ k, ∑ x, ∑ n, phi occ s.kT (e t0 k n) * ((band s (U t0) x k n n * (u' x : ℂ)).re) =
        ∑ n, phi occ s.kT (e t0 k n) * (((U t0 k)ᴴ * dH s u' k * U t0 k) n n).re := by
      intro k
      rw [Finset.sum_comm]
      refine Finset.sum_congr rfl fun n _ => ?_
      rw [← Finset.mul_sum, ← Complex.re_sum, band_sum]
    rw [Finset.sum_congr rfl fun k _ => h9 k]
    simp only [mul_sub, Finset.sum_sub_distrib, ← Finset.sum_mul]
    ring
  have hlat : (0.5 : ℝ) * (∑ x, ∑ y, (u' x * (s.C0 0 x y).re * u t0 y + u t0 x * (s.C0 0 x y).re * u' y)) =
      ∑ x, (∑ y, (s.C0 0 x y).re * u t0 y) * u' x := by
    have h1 : ∑ x, ∑ y, u t0 x * (s.C0 0 x y).re * u' y = ∑ x, ∑ y, u' x * (s.C0 0 x y).re * u t0 y := by
      rw [Finset.sum_comm]
      refine Finset.sum_congr rfl fun x _ => Finset.sum_congr rfl fun y _ => ?_
      rw [hC y x]
      ring
    simp only [Finset.sum_add_distrib]
    rw [h1, ← two_mul, ← mul_assoc]
    norm_num
    refine Finset.sum_congr rfl fun x _ => ?_
    rw [Finset.sum_mul]
    refine Finset.sum_congr rfl fun y _ => ?_
    ring
  rw [hforce, hlat, ← Finset.sum_add_distrib, ← Finset.sum_add_distrib]
  refine Finset.sum_congr rfl fun x _ => ?_
  unfold Driver.jacobian Driver.move
  simp only
  ring

/-- Derivative of the forces; eigenvectors are arbitrary for every structure. -/
theorem state_hessian (diag : ∀ t, Diagonalized occ (s.move (u t) (e t) (U t) (mu t))) (du : ∀ x, HasDerivAt (fun t => u t x) (u' x) t0)
    (ho : ∀ x, HasDerivAt occ (-delta x) x) (hdelta : ∀ x, 0 < delta x) (hc : Continuous delta) (hkT : 0 < s.kT) (eps : ℝ) (heps : 0 ≤ eps)
    (hq : s.q 0 = fun _ => 0) (hd : ∀ x k, (s.d0 0 x k)ᴴ = s.d0 0 x k)
    (hsep : ∀ k m n, e t0 k m ≠ e t0 k n → eps < |e t0 k m - e t0 k n|) (x : X nat) :
    HasDerivAt (fun t => (s.move (u t) (e t) (U t) (mu t)).jacobian occ x)
      (∑ y, (s.move (u t0) (e t0) (U t0) (mu t0)).hessianGamma eps occ delta x y * u' y) t0 := by
  set N : ℂ := 2 / (n1 * n2 * n3 : Nat) with hN
  set mu' := level' delta s u' (e t0) (U t0) with hmu'
  set d : Mesh n1 n2 n3 → Fin nb → ℝ := fun k n => delta (e t0 k n / s.kT) / s.kT with hdd
  have hdos0 : dos delta s.kT (e t0) ≠ 0 := (dos_pos hdelta hkT (e t0)).ne'
  have hphi : ∀ x, HasDerivAt (phi occ s.kT) (phi' delta s.kT x) x := fun x => by simpa only [sub_zero] using phi_hasDerivAt ho s.kT 0 x
  have hphic : Continuous (phi' delta s.kT) := by simpa only [sub_zero] using phi'_continuous hc s.kT 0
  set qq := quotient (phi occ s.kT) (phi' delta s.kT) with hqq
  set w : Mesh n1 n2 n3 → Fin nb → Fin nb → ℝ := weights eps s.kT occ delta none (e t0) fun _ => 0 with hw
  have hwq : ∀ k m n, qq (e t0 k m) (e t0 k n) = w k m n := by
    intro k m n
    rw [hw, weights_zero, hqq]
    unfold Spectral.quotient
    by_cases he : e t0 k m = e t0 k n
    · rw [if_pos he, he, sub_self, abs_zero, if_neg (not_lt.2 heps), div_neg]
      rfl
    · rw [if_neg he, if_pos (hsep k n m (Ne.symm he)), ← neg_sub (e t0 k n), ← neg_sub (phi occ s.kT (e t0 k n)), neg_div_neg_eq]
      rfl
  set G' : Mesh n1 n2 n3 → Matrix (Fin nb) (Fin nb) ℂ := fun k => (U t0 k)ᴴ * dH s u' k * U t0 k with hG'
  have hF : HasDerivAt (fun t => firstOrderU s.kT occ (e t) (U t) (s.d0 0 x))
      (N * ∑ k, ∑ m, ∑ n, (w k m n : ℂ) * (G' k m n - if m = n then (mu' : ℂ) else 0) * band s (U t0) x k n m) t0 := by
    have e1 : (fun t => firstOrderU s.kT occ (e t) (U t) (s.d0 0 x)) =
        fun t => N * ∑ k, (s.d0 0 x k * fn (phi occ s.kT) (U t k) (e t k)).trace := by
      funext t
      exact force_eq occ s.kT (e t) (U t) (s.d0 0 x)
    rw [e1]
    refine (HasDerivAt.fun_sum fun k _ => ?_).const_mul _
    refine (trace_hasDerivAt hphi hphic (fun t => shifted_eig diag k t) (fun t => (diag t).unitary k)
      (fun i j => shifted_hasDerivAt diag du ho hdelta hc hkT k i j) (s.d0 0 x k)).congr_deriv ?_
    refine Finset.sum_congr rfl fun m _ => Finset.sum_congr rfl fun n _ => ?_
    rw [shifted_band (U t0 k) (dH s u' k) ((diag t0).unitary k) (mu' : ℂ) m n]
    rw [← hqq, hwq]
    rfl
  have hPi : (∑ y, selfEnergy false false (fun k m n => (w k m n : ℂ)) (fun _ _ => 0) (band s (U t0)) none x y *
      (u' y : ℂ)) = N * ∑ k, ∑ m, ∑ n, (w k m n : ℂ) * G' k m n * band s (U t0) x k n m := by
    have h1 : ∀ y, selfEnergy false false (fun k m n => (w k m n : ℂ)) (fun _ _ => 0) (band s (U t0)) none x y * (u' y : ℂ) =
        N * ∑ k, ∑ m, ∑ n, (w k m n : ℂ) * (band s (U t0) y k m n * (u' y : ℂ)) * band s (U t0) x k n m := by
      intro y
      unfold selfEnergy contact piK
      simp only [Complex.ofReal_zero, zero_div, mul_zero, zero_mul, Finset.sum_const_zero, add_zero, Bool.false_eq_true,
        false_and, if_false]
      rw [mul_assoc, Finset.sum_mul]
      congr 1
      refine Finset.sum_congr rfl fun k _ => ?_
      rw [Finset.sum_mul]
      refine Finset.sum_congr rfl fun m _ => ?_
      rw [Finset.sum_mul]
      refine Finset.sum_congr rfl fun n _ => ?_
      rw [← band_hermitian s hd (U t0) x k m n]
      ring
    rw [Finset.sum_congr rfl fun y _ => h1 y, ← Finset.mul_sum, Finset.sum_comm]
    congr 1
    refine Finset.sum_congr rfl fun k _ => ?_
    rw [Finset.sum_comm]
    refine Finset.sum_congr rfl fun m _ => ?_
    rw [Finset.sum_comm]
    refine Finset.sum_congr rfl fun n _ => ?_
    rw [hG']
    simp only
    rw [← band_sum, Finset.mul_sum, Finset.sum_mul]
  have hshift : (∑ y, fermiShift s.kT delta (e t0) (band s (U t0)) x y * (u' y : ℂ)) =
      N * ((mu' : ℂ) * ∑ k, ∑ n, (d k n : ℂ) * band s (U t0) x k n n) := by
    have hdosC : (dos delta s.kT (e t0) : ℂ) ≠ 0 := by exact_mod_cast hdos0
    have h1 : ∑ y, (∑ k, ∑ n, (d k n : ℂ) * band s (U t0) y k n n) * (u' y : ℂ) = (mu' : ℂ) * (dos delta s.kT (e t0) : ℂ) := by
      have h2 : ∑ y, (∑ k, ∑ n, (d k n : ℂ) * band s (U t0) y k n n) * (u' y : ℂ) =
          ∑ k, ∑ n, (d k n : ℂ) * (((G' k n n).re : ℝ) : ℂ) := by
        simp only [Finset.sum_mul]
        rw [Finset.sum_comm]
        refine Finset.sum_congr rfl fun k _ => ?_
        rw [Finset.sum_comm]
        refine Finset.sum_congr rfl fun n _ => ?_
        have h3 : (((G' k n n).re : ℝ) : ℂ) = G' k n n := by
          refine Complex.conj_eq_iff_re.1 ?_
          rw [hG']
          simp only
          rw [← band_sum, map_sum]
          refine Finset.sum_congr rfl fun y _ => ?_
          rw [map_mul, Complex.conj_ofReal]
          exact congrArg (· * (u' y : ℂ)) (band_hermitian s hd (U t0) y k n n)
        rw [h3, hG']
        simp only
        rw [← band_sum, Finset.mul_sum]
        refine Finset.sum_congr rfl fun y _ => ?_
        ring
      rw [h2]
      have h4 : mu' * dos delta s.kT (e t0) = ∑ k, ∑ n, d k n * (G' k n n).re := by
        rw [hmu']
        unfold level'
        rw [div_mul_cancel₀ _ hdos0]
      have h5 := congrArg (fun r : ℝ => (r : ℂ)) h4
      push_cast at h5
      rw [h5]
    have h4 : ∀ y, fermiShift s.kT delta (e t0) (band s (U t0)) x y * (u' y : ℂ) =
        N * (∑ k, ∑ n, (d k n : ℂ) * band s (U t0) x k n n) / (dos delta s.kT (e t0) : ℂ) *
          ((∑ k, ∑ n, (d k n : ℂ) * band s (U t0) y k n n) * (u' y : ℂ)) := by
      intro y
      have h5 : fermiShift s.kT delta (e t0) (band s (U t0)) x y = N * (dos delta s.kT (e t0) : ℂ) *
          ((∑ k, ∑ n, (d k n : ℂ) * band s (U t0) x k n n) / (dos delta s.kT (e t0) : ℂ) *
            ((∑ k, ∑ n, (d k n : ℂ) * band s (U t0) y k n n) / (dos delta s.kT (e t0) : ℂ))) := rfl
      rw [h5]
      field_simp
    rw [Finset.sum_congr rfl fun y _ => h4 y, ← Finset.mul_sum, h1]
    field_simp
  have helec : N * (∑ k, ∑ m, ∑ n, (w k m n : ℂ) * (G' k m n - if m = n then (mu' : ℂ) else 0) * band s (U t0) x k n m) =
      ∑ y, (s.move (u t0) (e t0) (U t0) (mu t0)).electronic eps occ delta 0 x y * (u' y : ℂ) := by
    have h1 : ∀ y, (s.move (u t0) (e t0) (U t0) (mu t0)).electronic eps occ delta 0 x y * (u' y : ℂ) =
        selfEnergy false false (fun k m n => (w k m n : ℂ)) (fun _ _ => 0) (band s (U t0)) none x y * (u' y : ℂ) +
        fermiShift s.kT delta (e t0) (band s (U t0)) x y * (u' y : ℂ) := by
      intro y
      have hd0 : (s.move (u t0) (e t0) (U t0) (mu t0)).d 0 = band s (U t0) := by
        funext x k
        exact d_zero (s.move (u t0) (e t0) (U t0) (mu t0)) hq x k
      unfold Driver.electronic
      rw [hd0, if_pos rfl, add_mul]
      simp only [Driver.move, hq]
      rfl
    rw [Finset.sum_congr rfl fun y _ => h1 y, Finset.sum_add_distrib, hPi, hshift, ← mul_add]
    congr 1
    rw [Finset.mul_sum, ← Finset.sum_add_distrib]
    refine Finset.sum_congr rfl fun k _ => ?_
    have h2 : ∀ m, ∑ n, (w k m n : ℂ) * (G' k m n - if m = n then (mu' : ℂ) else 0) * band s (U t0) x k n m =
        (∑ n, (w k m n : ℂ) * G' k m n * band s (U t0) x k n m) + (mu' : ℂ) * ((d k m : ℂ) * band s (U t0) x k m m) := by
      intro m
      have h3 : ∀ n, (w k m n : ℂ) * (G' k m n - if m = n then (mu' : ℂ) else 0) * band s (U t0) x k n m =
          (w k m n : ℂ) * G' k m n * band s (U t0) x k n m - if m = n then (w k m n : ℂ) * (mu' : ℂ) * band s (U t0) x k n m else 0 := by
        intro n
        split_ifs <;> ring
      rw [Finset.sum_congr rfl fun n _ => h3 n, Finset.sum_sub_distrib, Finset.sum_ite_eq, if_pos (Finset.mem_univ _)]
      have h4 : w k m m = -d k m := by
        rw [← hwq, hqq, quotient_self]
        rfl
      rw [h4]
      push_cast
      ring
    rw [Finset.sum_congr rfl fun m _ => h2 m, Finset.sum_add_distrib, Finset.mul_sum]
  rw [helec] at hF
  have hre := Complex.reCLM.hasFDerivAt.comp_hasDerivAt t0 hF
  have hlat : HasDerivAt (fun τ => ∑ y, (s.C0 0 x y).re * u τ y) (∑ y, (s.C0 0 x y).re * u' y) t0 :=
    HasDerivAt.fun_sum fun y _ => (du y).const_mul _
  have hsum := (hre.add hlat).add_const (s.F0 x)
  refine hsum.congr_deriv ?_
  rw [Complex.reCLM_apply, Complex.re_sum, ← Finset.sum_add_distrib]
  refine Finset.sum_congr rfl fun y _ => ?_
  unfold Driver.hessianGamma Driver.hessian
  rw [Complex.re_mul_ofReal, Complex.add_re, add_mul]
  rfl

end state

/-! ### C185 -/

/-- If the derivative of a function vanishes and decreases at zero, the function decreases beyond zero. -/
theorem decrease {g g' : ℝ → ℝ} {c : ℝ} (h : ∀ t, HasDerivAt g (g' t) t) (h0 : g' 0 = 0) (h' : HasDerivAt g' c 0) (hc : c < 0) :
    ∀ᶠ t in 𝓝[>] 0, g t < g 0 := by
  have h1 := (hasDerivAt_iff_tendsto_slope.1 h').eventually (gt_mem_nhds hc)
  have h2 : ∀ᶠ t in 𝓝[>] (0 : ℝ), slope g' 0 t < 0 := h1.filter_mono (nhdsWithin_mono _ fun t ht => ne_of_gt ht)
  obtain ⟨r, hr, hr'⟩ := mem_nhdsGT_iff_exists_Ioo_subset.1 h2
  refine mem_nhdsGT_iff_exists_Ioo_subset.2 ⟨r, hr, fun t ht => ?_⟩
  obtain ⟨z, hz, hz'⟩ := exists_hasDerivAt_eq_slope g g' ht.1 (fun x _ => (h x).continuousAt.continuousWithinAt) fun x _ => h x
  have h3 : slope g' 0 z < 0 := hr' ⟨hz.1, hz.2.trans ht.2⟩
  rw [slope_def_field, h0, sub_zero, sub_zero] at h3
  have h4 : g' z < 0 := by
    rcases div_neg_iff.1 h3 with h5 | h5
    · exact absurd h5.2 (not_lt.2 hz.1.le)
    · exact h5.1
  rw [hz', sub_zero] at h4
  show g t < g 0
  rcases div_neg_iff.1 h4 with h5 | h5
  · exact absurd h5.2 (not_lt.2 ht.1.le)
  · linarith [h5.1]

section C185
variable [NeZero n1] [NeZero n2] [NeZero n3] [NeZero nb] {occ delta entropy : ℝ → ℝ} {s : Driver n1 n2 n3 nb nat nq}
  {eigh : Matrix (Fin nb) (Fin nb) ℂ → (Fin nb → ℝ) × Matrix (Fin nb) (Fin nb) ℂ} {level : (Mesh n1 n2 n3 → Fin nb → ℝ) → ℝ}

/-- **C185**: the free energy is differentiable. The forces returned by `jacobian` are its derivative with respect to displacements relative to the
centre of mass, whatever eigenvectors the diagonalization yields for each structure. -/
theorem C185_gradient (h : Externals occ eigh level s) (hkT : 0 < s.kT) (ho : ∀ x, HasDerivAt occ (-delta x) x)
    (hs : ∀ x, HasDerivAt entropy (-x * delta x) x) (hdelta : ∀ x, 0 < delta x) (hc : Continuous delta)
    (hC : ∀ x y, (s.C0 0 x y).re = (s.C0 0 y x).re) (v : ℝ → X nat → ℝ) (v' : X nat → ℝ) (t : ℝ) (hv : ∀ x, HasDerivAt (fun t => v t x) (v' x) t) :
    HasDerivAt (fun τ => E eigh level occ entropy s (v τ)) (∑ x, G eigh level occ s (v t) x * center v' x) t :=
  state_gradient (u := fun τ => center (v τ)) (fun τ => solved_diagonalized h (v τ)) (center_hasDerivAt hv) ho hs hdelta hc hkT hC

/-- **C185**: the forces are differentiable. The Hessian returned by `hessian` is their derivative. Energies which are not equal must differ by more
than the threshold `eps`. -/
theorem C185_hessian (h : Externals occ eigh level s) (hkT : 0 < s.kT) (ho : ∀ x, HasDerivAt occ (-delta x) x) (hdelta : ∀ x, 0 < delta x)
    (hc : Continuous delta) (eps : ℝ) (heps : 0 ≤ eps) (hq : s.q 0 = fun _ => 0) (v : ℝ → X nat → ℝ) (v' : X nat → ℝ) (t : ℝ)
    (hv : ∀ x, HasDerivAt (fun t => v t x) (v' x) t)
    (hsep : ∀ k m n, (solved eigh level s (v t)).e k m ≠ (solved eigh level s (v t)).e k n →
      eps < |(solved eigh level s (v t)).e k m - (solved eigh level s (v t)).e k n|) (x : X nat) :
    HasDerivAt (fun τ => G eigh level occ s (v τ) x) (∑ y, H eigh level occ delta eps s (v t) x y * center v' y) t :=
  state_hessian (u := fun τ => center (v τ)) (fun τ => solved_diagonalized h (v τ)) (center_hasDerivAt hv) ho hdelta hc hkT eps heps hq h.coupling hsep x

/-- **C185**: the chemical potential is differentiable, with the average of the diagonal coupling at the Fermi level as the derivative. -/
theorem C185_level (h : Externals occ eigh level s) (hkT : 0 < s.kT) (ho : ∀ x, HasDerivAt occ (-delta x) x) (hdelta : ∀ x, 0 < delta x)
    (hc : Continuous delta) (v : ℝ → X nat → ℝ) (v' : X nat → ℝ) (t : ℝ) (hv : ∀ x, HasDerivAt (fun t => v t x) (v' x) t) :
    HasDerivAt (fun τ => (solved eigh level s (v τ)).mu)
      ((∑ k, ∑ n, delta ((solved eigh level s (v t)).e k n / s.kT) / s.kT *
          ((((solved eigh level s (v t)).U k)ᴴ * (∑ x, (center v' x : ℂ) • s.d0 0 x k) * (solved eigh level s (v t)).U k) n n).re) /
        ∑ k, ∑ n, delta ((solved eigh level s (v t)).e k n / s.kT) / s.kT) t := by
  have key := level_hasDerivAt (u := fun τ => center (v τ)) (fun τ => solved_diagonalized h (v τ)) (center_hasDerivAt hv) ho hdelta hc hkT
  unfold level' dos dH at key
  exact key

/-- **C185**: the forces are the derivative with respect to all displacements given, if sum rules hold. -/
theorem C185_given (h : Externals occ eigh level s) (hsum : SumRules s) (hkT : 0 < s.kT) (ho : ∀ x, HasDerivAt occ (-delta x) x)
    (hs : ∀ x, HasDerivAt entropy (-x * delta x) x) (hdelta : ∀ x, 0 < delta x) (hc : Continuous delta)
    (v : ℝ → X nat → ℝ) (v' : X nat → ℝ) (t : ℝ) (hv : ∀ x, HasDerivAt (fun t => v t x) (v' x) t) :
    HasDerivAt (fun τ => E eigh level occ entropy s (v τ)) (∑ x, G eigh level occ s (v t) x * v' x) t := by
  refine (C185_gradient h hkT ho hs hdelta hc hsum.symm v v' t hv).congr_deriv ?_
  have h0 := C89_sum occ (solved eigh level s (v t)) hsum.springs hsum.coupling hsum.forces
  have h1 : ∀ x, G eigh level occ s (v t) x * center v' x = G eigh level occ s (v t) x * v' x -
      G eigh level occ s (v t) x * ((∑ na, v' (na, x.2)) / nat) := by
    intro x
    unfold center
    ring
  rw [Finset.sum_congr rfl fun x _ => h1 x, Finset.sum_sub_distrib, sub_eq_self, Fintype.sum_prod_type, Finset.sum_comm]
  refine Finset.sum_eq_zero fun y _ => ?_
  have h2 : ∑ na, G eigh level occ s (v t) (na, y) = 0 := h0 y
  simp only
  rw [← Finset.sum_mul, h2, zero_mul]

theorem at_solved (s : Driver n1 n2 n3 nb nat nq) (r0 r : X nat → ℝ) : s.at eigh level r0 r = solved eigh level s fun x => r x - r0 x := rfl

/-- **C185**: the forces handed over to i-PI are minus the derivative of the energy. -/
theorem C185_call (h : Externals occ eigh level s) (hsum : SumRules s) (hkT : 0 < s.kT) (ho : ∀ x, HasDerivAt occ (-delta x) x)
    (hs : ∀ x, HasDerivAt entropy (-x * delta x) x) (hdelta : ∀ x, 0 < delta x) (hc : Continuous delta) (r0 : X nat → ℝ)
    (r : ℝ → X nat → ℝ) (r' : X nat → ℝ) (t : ℝ) (hr : ∀ x, HasDerivAt (fun t => r t x) (r' x) t) :
    HasDerivAt (fun τ => (s.call eigh level occ entropy r0 (r τ)).1) (-∑ x, (s.call eigh level occ entropy r0 (r t)).2.1 x * r' x) t := by
  have key := C185_given h hsum hkT ho hs hdelta hc (fun τ x => r τ x - r0 x) r' t fun x => (hr x).sub_const _
  refine (key.const_mul 0.5).congr_deriv ?_
  rw [Finset.mul_sum, ← Finset.sum_neg_distrib]
  refine Finset.sum_congr rfl fun x _ => ?_
  simp only [Driver.call, at_solved, G]
  ring

/-- **C185**: motion according to these forces conserves the sum of kinetic and free energy, also where bands cross. -/
theorem C185_conserved (h : Externals occ eigh level s) (hsum : SumRules s) (hkT : 0 < s.kT) (ho : ∀ x, HasDerivAt occ (-delta x) x)
    (hs : ∀ x, HasDerivAt entropy (-x * delta x) x) (hdelta : ∀ x, 0 < delta x) (hc : Continuous delta) (r0 : X nat → ℝ) (M : Fin nat → ℝ)
    (hM : ∀ na, M na ≠ 0) (r v : ℝ → X nat → ℝ) (hr : ∀ t x, HasDerivAt (fun t => r t x) (v t x) t)
    (hv : ∀ t x, HasDerivAt (fun t => v t x) ((s.call eigh level occ entropy r0 (r t)).2.1 x / M x.1) t) (t1 t2 : ℝ) :
    (∑ x, M x.1 * v t1 x ^ 2 / 2) + (s.call eigh level occ entropy r0 (r t1)).1 =
      (∑ x, M x.1 * v t2 x ^ 2 / 2) + (s.call eigh level occ entropy r0 (r t2)).1 := by
  have hd : ∀ t, HasDerivAt (fun t => (∑ x, M x.1 * v t x ^ 2 / 2) + (s.call eigh level occ entropy r0 (r t)).1) 0 t := by
    intro t
    have h1 : HasDerivAt (fun t => ∑ x, M x.1 * v t x ^ 2 / 2) (∑ x, (s.call eigh level occ entropy r0 (r t)).2.1 x * v t x) t := by
      refine HasDerivAt.fun_sum fun x _ => ?_
      refine ((((hv t x).pow 2).const_mul (M x.1)).div_const 2).congr_deriv ?_
      have := hM x.1
      field_simp
      norm_num
      ring
    refine (h1.add (C185_call h hsum hkT ho hs hdelta hc r0 r (v t) t (hr t))).congr_deriv ?_
    ring
  exact is_const_of_deriv_eq_zero (fun t => (hd t).differentiableAt) (fun t => (hd t).deriv) t1 t2

theorem line_hasDerivAt (u w : X nat → ℝ) (t : ℝ) (x : X nat) : HasDerivAt (fun t => u x + t * w x) (w x) t := by
  simpa using ((hasDerivAt_id t).mul_const (w x)).const_add (u x)

theorem line_second (h : Externals occ eigh level s) (hkT : 0 < s.kT) (ho : ∀ x, HasDerivAt occ (-delta x) x) (hdelta : ∀ x, 0 < delta x)
    (hc : Continuous delta) (eps : ℝ) (heps : 0 ≤ eps) (hq : s.q 0 = fun _ => 0) (u w : X nat → ℝ)
    (hsep : ∀ k m n, (solved eigh level s u).e k m ≠ (solved eigh level s u).e k n →
      eps < |(solved eigh level s u).e k m - (solved eigh level s u).e k n|) :
    HasDerivAt (fun t => ∑ x, G eigh level occ s (fun x => u x + t * w x) x * center w x)
      (∑ x, ∑ y, center w x * H eigh level occ delta eps s u x y * center w y) 0 := by
  have e0 : (fun x => u x + 0 * w x) = u := by
    funext x
    ring
  refine (HasDerivAt.fun_sum fun x _ => (C185_hessian h hkT ho hdelta hc eps heps hq (fun t x => u x + t * w x) w 0
    (fun x => line_hasDerivAt u w 0 x) (by rw [e0]; exact hsep) x).mul_const (center w x)).congr_deriv ?_
  rw [e0]
  refine Finset.sum_congr rfl fun x _ => ?_
  rw [Finset.sum_mul]
  refine Finset.sum_congr rfl fun y _ => ?_
  ring

/-- **C185**: if the structure is stationary with respect to a pattern of displacements for which the Hessian is negative, the free energy is lowered
by displacing the atoms according to this pattern by any small amount. -/
theorem C185_unstable (h : Externals occ eigh level s) (hkT : 0 < s.kT) (ho : ∀ x, HasDerivAt occ (-delta x) x)
    (hs : ∀ x, HasDerivAt entropy (-x * delta x) x) (hdelta : ∀ x, 0 < delta x) (hc : Continuous delta)
    (hC : ∀ x y, (s.C0 0 x y).re = (s.C0 0 y x).re) (eps : ℝ) (heps : 0 ≤ eps) (hq : s.q 0 = fun _ => 0) (u w : X nat → ℝ)
    (hsep : ∀ k m n, (solved eigh level s u).e k m ≠ (solved eigh level s u).e k n →
      eps < |(solved eigh level s u).e k m - (solved eigh level s u).e k n|)
    (hstat : ∑ x, G eigh level occ s u x * center w x = 0)
    (hneg : ∑ x, ∑ y, center w x * H eigh level occ delta eps s u x y * center w y < 0) :
    ∀ᶠ t in 𝓝[>] (0 : ℝ), E eigh level occ entropy s (fun x => u x + t * w x) < E eigh level occ entropy s u := by
  have e0 : (fun x => u x + 0 * w x) = u := by
    funext x
    ring
  have key := decrease (g := fun t => E eigh level occ entropy s fun x => u x + t * w x)
    (g' := fun t => ∑ x, G eigh level occ s (fun x => u x + t * w x) x * center w x)
    (fun t => C185_gradient h hkT ho hs hdelta hc hC (fun t x => u x + t * w x) w t fun x => line_hasDerivAt u w t x)
    (by simp only [e0]; exact hstat) (line_second h hkT ho hdelta hc eps heps hq u w hsep) hneg
  simpa only [e0] using key

/-- **C185**: where the free energy has a local minimum, the Hessian has no negative eigenvalues (apart from collective displacements). -/
theorem C185_minimum (h : Externals occ eigh level s) (hkT : 0 < s.kT) (ho : ∀ x, HasDerivAt occ (-delta x) x)
    (hs : ∀ x, HasDerivAt entropy (-x * delta x) x) (hdelta : ∀ x, 0 < delta x) (hc : Continuous delta)
    (hC : ∀ x y, (s.C0 0 x y).re = (s.C0 0 y x).re) (eps : ℝ) (heps : 0 ≤ eps) (hq : s.q 0 = fun _ => 0) (u w : X nat → ℝ)
    (hsep : ∀ k m n, (solved eigh level s u).e k m ≠ (solved eigh level s u).e k n →
      eps < |(solved eigh level s u).e k m - (solved eigh level s u).e k n|)
    (hmin : ∀ᶠ v in 𝓝 u, E eigh level occ entropy s u ≤ E eigh level occ entropy s v) :
    0 ≤ ∑ x, ∑ y, center w x * H eigh level occ delta eps s u x y * center w y := by
  by_contra hn
  have e0 : (fun x => u x + 0 * w x) = u := by
    funext x
    ring
  have hline : Tendsto (fun t : ℝ => fun x => u x + t * w x) (𝓝 0) (𝓝 u) := by
    have h1 : Continuous fun t : ℝ => fun x => u x + t * w x := by fun_prop
    have h2 := h1.tendsto 0
    rwa [e0] at h2
  have hm : ∀ᶠ t in 𝓝 (0 : ℝ), E eigh level occ entropy s u ≤ E eigh level occ entropy s fun x => u x + t * w x := hline.eventually hmin
  have hstat : ∑ x, G eigh level occ s u x * center w x = 0 := by
    have h1 := C185_gradient h hkT ho hs hdelta hc hC (fun t x => u x + t * w x) w 0 fun x => line_hasDerivAt u w 0 x
    simp only [e0] at h1
    refine IsLocalMin.hasDerivAt_eq_zero (f := fun t => E eigh level occ entropy s fun x => u x + t * w x) (a := 0) ?_ h1
    show ∀ᶠ t in 𝓝 (0 : ℝ), _ ≤ _
    simpa only [e0] using hm
  have h3 := C185_unstable h hkT ho hs hdelta hc hC eps heps hq u w hsep hstat (not_le.1 hn)
  obtain ⟨t, h4, h5⟩ := (h3.and (hm.filter_mono nhdsWithin_le_nhds)).exists
  exact absurd h4 (not_lt.2 h5)

/-- **C185**: in a simulation set up from symmetrized force constants and coupling, the forces are the derivative of the free energy. -/
theorem C185_init {eps : ℝ} (heps : 0 ≤ eps) (hdelta : ∀ x, 0 < delta x) (hc : Continuous delta) (ho : ∀ x, HasDerivAt occ (-delta x) x)
    (hs : ∀ x, HasDerivAt entropy (-x * delta x) x) (unscreen : Bool) (kT n : ℝ)
    (hkT : 0 < kT) (q : Fin (nq + 1) → Fin 3 → ℝ) (hq : q 0 = fun _ => 0) (H0 : Mesh n1 n2 n3 → Matrix (Fin nb) (Fin nb) ℂ)
    (C0 : Fin (nq + 1) → X nat → X nat → ℂ) (d0 : Fin (nq + 1) → X nat → Mesh n1 n2 n3 → Matrix (Fin nb) (Fin nb) ℂ) (c : Fin 3 → ℝ)
    (hinv : Translation.Invariant C0 d0 c) (h : Externals occ eigh level (Driver.init eigh level eps occ delta unscreen kT n q H0 C0 d0))
    (v : ℝ → X nat → ℝ) (v' : X nat → ℝ) (t : ℝ) (hv : ∀ x, HasDerivAt (fun t => v t x) (v' x) t) :
    HasDerivAt (fun τ => E eigh level occ entropy (Driver.init eigh level eps occ delta unscreen kT n q H0 C0 d0) (v τ))
      (∑ x, G eigh level occ (Driver.init eigh level eps occ delta unscreen kT n q H0 C0 d0) (v t) x * v' x) t := by
  have hsum := fun x => (Translation.C166_simulation eps heps delta entropy hdelta unscreen kT n hkT q hq H0 C0 d0 c hinv h (fun _ => 0) (v t) x).1
  have hsym := Translation.init_symm (occ := occ) (eigh := eigh) (level := level) eps delta unscreen kT n q H0 C0 d0 hinv.herm
  have hk : (Driver.init eigh level eps occ delta unscreen kT n q H0 C0 d0).kT = kT := by unfold Driver.init; cases unscreen <;> rfl
  set s := Driver.init eigh level eps occ delta unscreen kT n q H0 C0 d0
  have hk' : 0 < s.kT := by rw [hk]; exact hkT
  refine (C185_gradient h hk' ho hs hdelta hc hsym v v' t hv).congr_deriv ?_
  have h2 : ∀ y, ∑ na, G eigh level occ s (v t) (na, y) = 0 := by
    intro y
    have h3 := hsum y
    simp only [Driver.call, at_solved, sub_zero, ← Finset.mul_sum] at h3
    have h4 : ∑ na, (solved eigh level s (v t)).jacobian occ (na, y) = 0 := by
      rcases mul_eq_zero.1 h3 with h5 | h5
      · norm_num at h5
      · exact h5
    exact h4
  have h1 : ∀ x, G eigh level occ s (v t) x * center v' x = G eigh level occ s (v t) x * v' x -
      G eigh level occ s (v t) x * ((∑ na, v' (na, x.2)) / nat) := by
    intro x
    unfold center
    ring
  rw [Finset.sum_congr rfl fun x _ => h1 x, Finset.sum_sub_distrib, sub_eq_self, Fintype.sum_prod_type, Finset.sum_comm]
  refine Finset.sum_eq_zero fun y _ => ?_
  simp only
  rw [← Finset.sum_mul, h2, zero_mul]

/-- **C185**: if the Hessian of the structure with respect to which a simulation has been set up is negative for a pattern of displacements (imaginary
phonon frequency), this structure is not stable: the free energy is lowered by displacing the atoms according to this pattern by any small amount. -/
theorem C185_reference {eps : ℝ} (heps : 0 ≤ eps) (hdelta : ∀ x, 0 < delta x) (hc : Continuous delta) (ho : ∀ x, HasDerivAt occ (-delta x) x)
    (hs : ∀ x, HasDerivAt entropy (-x * delta x) x) (unscreen : Bool) (kT n : ℝ)
    (hkT : 0 < kT) (q : Fin (nq + 1) → Fin 3 → ℝ) (hq : q 0 = fun _ => 0) (H0 : Mesh n1 n2 n3 → Matrix (Fin nb) (Fin nb) ℂ)
    (C0 : Fin (nq + 1) → X nat → X nat → ℂ) (d0 : Fin (nq + 1) → X nat → Mesh n1 n2 n3 → Matrix (Fin nb) (Fin nb) ℂ)
    (hC : ∀ x y, star (C0 0 x y) = C0 0 y x) (h : Externals occ eigh level (Driver.init eigh level eps occ delta unscreen kT n q H0 C0 d0))
    (hsep : ∀ k m n', (Driver.init eigh level eps occ delta unscreen kT n q H0 C0 d0).e k m ≠
        (Driver.init eigh level eps occ delta unscreen kT n q H0 C0 d0).e k n' →
      eps < |(Driver.init eigh level eps occ delta unscreen kT n q H0 C0 d0).e k m -
        (Driver.init eigh level eps occ delta unscreen kT n q H0 C0 d0).e k n'|) (w : X nat → ℝ)
    (hneg : ∑ x, ∑ y, center w x * (Driver.init eigh level eps occ delta unscreen kT n q H0 C0 d0).hessianGamma eps occ delta x y * center w y < 0) :
    ∀ᶠ t in 𝓝[>] (0 : ℝ), E eigh level occ entropy (Driver.init eigh level eps occ delta unscreen kT n q H0 C0 d0) (fun x => t * w x) <
      (Driver.init eigh level eps occ delta unscreen kT n q H0 C0 d0).freeEnergy occ entropy := by
  have hk : (Driver.init eigh level eps occ delta unscreen kT n q H0 C0 d0).kT = kT := by unfold Driver.init; cases unscreen <;> rfl
  have hsol := solved_init (occ := occ) (delta := delta) (eigh := eigh) (level := level) eps unscreen kT n q H0 C0 d0
  have hq' : (Driver.init eigh level eps occ delta unscreen kT n q H0 C0 d0).q 0 = fun _ => 0 := by cases unscreen <;> exact hq
  have hf := (C55_forces eigh level eps occ delta unscreen kT n q H0 C0 d0).2
  have hsym := Translation.init_symm (occ := occ) (eigh := eigh) (level := level) eps delta unscreen kT n q H0 C0 d0 hC
  set s := Driver.init eigh level eps occ delta unscreen kT n q H0 C0 d0
  have hG : G eigh level occ s (fun _ => 0) = fun _ => 0 := by
    funext x
    unfold G
    rw [hsol]
    exact congrFun hf x
  have key := C185_unstable (s := s) h (by rw [hk]; exact hkT) ho hs hdelta hc hsym eps heps hq' (fun _ => 0) w (by rw [hsol]; exact hsep)
    (by rw [hG]; simp) (by
      have e1 : ∀ x y, H eigh level occ delta eps s (fun _ => 0) x y = s.hessianGamma eps occ delta x y := by
        intro x y
        unfold H
        rw [hsol]
      simp only [e1]
      exact hneg)
  have e2 : E eigh level occ entropy s (fun _ => 0) = s.freeEnergy occ entropy := by
    unfold E
    rw [hsol]
  rw [e2] at key
  simpa only [zero_add] using key

end C185

/-! ### Examples -/

section examples
open Verif.Occ

theorem gaussDelta_continuous : Continuous gaussDelta := continuous_iff_continuousAt.2 fun x => (gaussDelta_hasDerivAt x).continuousAt

/-- The derivative exists for the undistorted structure, where both orbitals are degenerate and cross. -/
example (w : X 2 → ℝ) := C185_gradient (s := trap 1) (entropy := gaussEntropy) (trap_externals 1) one_pos (fun x => (C36_gauss x).1) C37_gauss gaussDelta_pos
  gaussDelta_continuous (springs_symm 1) (fun t x => 0 + t * w x) w 0 fun x => line_hasDerivAt (fun _ => 0) w 0 x

example (u w : X 2 → ℝ) := C185_hessian (s := trap 1) (trap_externals 1) one_pos (fun x => (C36_gauss x).1) gaussDelta_pos gaussDelta_continuous 0 le_rfl rfl
  (fun t x => u x + t * w x) w 0 (fun x => line_hasDerivAt u w 0 x) (fun _ _ _ h => abs_pos.2 (sub_ne_zero.2 h))

example (u w : X 2 → ℝ) := C185_level (s := trap 1) (trap_externals 1) one_pos (fun x => (C36_gauss x).1) gaussDelta_pos gaussDelta_continuous
  (fun t x => u x + t * w x) w 0 fun x => line_hasDerivAt u w 0 x

theorem trap_sum (k : ℝ) : SumRules (trap k) where
  symm := springs_symm k
  springs := fun x y => by
    have : ∑ na, ((trap k).C0 0 (na, x) y).re = 0 := by
      show ∑ na, (Bounds.springs k 0 (na, x) y).re = 0
      unfold Bounds.springs
      rw [Fin.sum_univ_two]
      rcases y with ⟨b, y⟩
      by_cases hy : x = y
      · fin_cases b <;> simp [hy]
      · simp [hy]
    exact this
  coupling := fun x k' => by
    show ∑ na, duo.d0 0 (na, x) k' = 0
    rw [Fin.sum_univ_two]
    unfold duo
    simp only [Prod.mk.injEq]
    by_cases hx : x = 0
    · subst hx
      simp only [and_self, if_true, Fin.isValue, one_ne_zero, false_and, if_false]
      ext i j
      fin_cases i <;> fin_cases j <;> simp
    · simp [hx]
  forces := fun _ => by simp [trap, duo]

example (w : X 2 → ℝ) := C185_given (s := trap 1) (entropy := gaussEntropy) (trap_externals 1) (trap_sum 1) one_pos (fun x => (C36_gauss x).1) C37_gauss gaussDelta_pos
  gaussDelta_continuous (fun t x => 0 + t * w x) w 0 fun x => line_hasDerivAt (fun _ => 0) w 0 x

example (w : X 2 → ℝ) := C185_call (s := trap 1) (entropy := gaussEntropy) (trap_externals 1) (trap_sum 1) one_pos (fun x => (C36_gauss x).1) C37_gauss gaussDelta_pos
  gaussDelta_continuous (fun _ => 1) (fun t x => 1 + t * w x) w 0 fun x => line_hasDerivAt (fun _ => 1) w 0 x

example : ∃ u, ∀ w, 0 ≤ ∑ x, ∑ y, center w x * H eigh2 level2 gauss gaussDelta 0 (trap 1) u x y * center w y := by
  obtain ⟨u, hu, _⟩ := trap_minimum
  exact ⟨u, fun w => C185_minimum (s := trap 1) (entropy := gaussEntropy) (trap_externals 1) one_pos (fun x => (C36_gauss x).1) C37_gauss gaussDelta_pos
    gaussDelta_continuous (springs_symm 1) 0 le_rfl rfl u w (fun _ _ _ h => abs_pos.2 (sub_ne_zero.2 h)) (Eventually.of_forall hu)⟩

/-- Oscillation of two atoms. -/
example (r0 : X 2 → ℝ) (t1 t2 : ℝ) := C185_conserved dimer_externals dimer_sumRules one_pos (fun x => (C36_gauss x).1) C37_gauss gaussDelta_pos
  gaussDelta_continuous r0 (fun _ => 1) (fun _ => one_ne_zero) (fun t x => r0 x + stretch (Real.cos t) x) (fun t => stretch (-Real.sin t))
  (fun t x => by
    refine HasDerivAt.const_add _ ?_
    unfold stretch
    split
    · exact Real.hasDerivAt_cos t
    · split
      · exact (Real.hasDerivAt_cos t).neg
      · exact hasDerivAt_const _ _)
  (fun t x => by
    rw [dimer_forces, div_one]
    unfold stretch
    split
    · exact (Real.hasDerivAt_sin t).neg
    · split
      · exact (Real.hasDerivAt_sin t).neg.neg
      · exact (hasDerivAt_const _ _).congr_deriv (by simp)) t1 t2

example (unscreen : Bool) (t : ℝ) := C185_init (eps := 1) zero_le_one gaussDelta_pos gaussDelta_continuous (fun x => (C36_gauss x).1) C37_gauss unscreen 1 1
  one_pos (fun _ _ => 0) rfl dimer.H0 dimer.C0 dimer.d0 (fun _ => 0) Translation.dimer_invariant (Translation.dimer_init unscreen)
  (fun t x => 0 + t * stretch 1 x) (stretch 1) t fun x => line_hasDerivAt (fun _ => 0) (stretch 1) t x

theorem loose_externals (k : ℝ) : Externals gauss eigh2 level2 (Driver.init eigh2 level2 0 gauss gaussDelta false 1 2 (fun _ _ => 0) duo.H0
    (Bounds.springs k) duo.d0) :=
  ⟨duo_externals.eig, duo_externals.unitary, duo_externals.number, duo_externals.hamiltonian, duo_externals.coupling⟩

theorem loose_negative : ∑ x, ∑ y, center (stretch 1) x * H eigh2 level2 gauss gaussDelta 0 (Driver.init eigh2 level2 0 gauss gaussDelta false 1 2
    (fun _ _ => 0) duo.H0 (Bounds.springs (-1)) duo.d0) (fun _ => 0) x y * center (stretch 1) y < 0 := by
  refine (C182_hessian 0 le_rfl one_pos C35_gauss.anti.antitone gaussDelta_pos rfl (loose_externals (-1)) (fun _ => 0) (center (stretch 1))).trans_lt ?_
  show form (Bounds.springs (-1) 0) (center (stretch 1)) < 0
  rw [springs_form, center_stretch, Fintype.sum_prod_type]
  simp [Fin.sum_univ_two, Fin.sum_univ_three, stretch]

/-- Two atoms that repel each other. -/
example := C185_reference (entropy := gaussEntropy) le_rfl gaussDelta_pos gaussDelta_continuous (fun x => (C36_gauss x).1) C37_gauss false 1 2 one_pos
  (fun _ _ => 0) rfl duo.H0 (Bounds.springs (-1)) duo.d0 (springs_herm (-1)) (loose_externals (-1)) (fun _ _ _ h => abs_pos.2 (sub_ne_zero.2 h)) (stretch 1)
  loose_negative

example := C185_unstable (entropy := gaussEntropy) (loose_externals (-1)) one_pos (fun x => (C36_gauss x).1) C37_gauss gaussDelta_pos gaussDelta_continuous
  (springs_symm (-1)) 0 le_rfl rfl (fun _ => 0) (stretch 1) (fun _ _ _ h => abs_pos.2 (sub_ne_zero.2 h))
  (Finset.sum_eq_zero fun x _ => by
    have := congrFun (C55_forces eigh2 level2 0 gauss gaussDelta false 1 2 (fun _ _ => 0) duo.H0 (Bounds.springs (-1)) duo.d0).2 x
    rw [show G eigh2 level2 gauss (Driver.init eigh2 level2 0 gauss gaussDelta false 1 2 (fun _ _ => 0) duo.H0 (Bounds.springs (-1)) duo.d0)
      (fun _ => 0) x = 0 from this, zero_mul]) loose_negative

end examples

end Verif.MD.Differentiable
