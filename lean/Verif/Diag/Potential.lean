import Verif.Diag.Triangle
import Mathlib.Analysis.Convex.Deriv
import Mathlib.Analysis.Convex.Jensen

/-!
# Fermi-Dirac variants of C52 and C53, grand potential (C81)

Code for Fermi-Dirac occupations limits arguments of exponential functions to 709. For arguments not affected, results are
those for the exact functions.
-/

namespace Verif.Diag

open Verif.Occ

/-! ### Exact functions -/

/-- Fermi function. -/
noncomputable def fd (x : ℝ) : ℝ := 1 / (Real.exp x + 1)

/-- Negative derivative. -/
noncomputable def fdDelta (x : ℝ) : ℝ := 1 / (2 * Real.cosh x + 2)

/-- Derivative of `fdDelta`. -/
noncomputable def fdPrime (x : ℝ) : ℝ := -Real.sinh x / (2 * (Real.cosh x + 1) ^ 2)

/-- Entropy of independent fermions. -/
noncomputable def fdEntropy (x : ℝ) : ℝ := -(fd x * Real.log (fd x) + (1 - fd x) * Real.log (1 - fd x))

theorem fd_pos (x : ℝ) : 0 < fd x := by unfold fd; positivity

theorem fd_eq (x : ℝ) (hx : |x| ≤ 709) : fermiDirac x = fd x := by
  unfold fermiDirac fd
  rw [min_eq_left (show x ≤ xmax from (le_abs_self x).trans hx)]

theorem fdDelta_eq (x : ℝ) (hx : |x| ≤ 709) : fermiDiracDelta x = fdDelta x := by
  unfold fermiDiracDelta fdDelta
  rw [min_eq_left (show |x| ≤ xmax from hx), Real.cosh_abs]

theorem fdPrime_eq (x : ℝ) (hx : |x| ≤ 709) : fermiDiracDeltaPrime x = fdPrime x := by
  unfold fermiDiracDeltaPrime fdPrime
  rw [clip_eq x hx]

theorem fdEntropy_eq (x : ℝ) (hx : |x| ≤ 709) : fermiDiracEntropy x = fdEntropy x := by
  rw [C37_fermi_dirac_entropy x hx, fd_eq x hx]
  rfl

theorem fd_deriv (x : ℝ) : HasDerivAt fd (-fdDelta x) x := fd_hasDerivAt x

theorem fdDelta_deriv (x : ℝ) : HasDerivAt fdDelta (fdPrime x) x := by
  unfold fdDelta fdPrime
  have hc := Real.cosh_pos x
  have hp : 2 * Real.cosh x + 2 ≠ 0 := by positivity
  have h := (((Real.hasDerivAt_cosh x).const_mul 2).add_const 2).inv hp
  have e : (fun y => 1 / (2 * Real.cosh y + 2)) = fun y => (2 * Real.cosh y + 2)⁻¹ := by
    funext y
    rw [one_div]
  rw [e]
  refine h.congr_deriv ?_
  rw [show 2 * Real.cosh x + 2 = 2 * (Real.cosh x + 1) by ring]
  field_simp

theorem fdPrime_continuous : Continuous fdPrime := by
  unfold fdPrime
  refine Continuous.div (by fun_prop) (by fun_prop) fun x => ?_
  have hc := Real.cosh_pos x
  positivity

theorem one_sub_fd (x : ℝ) : 1 - fd x = fd (-x) := by
  unfold fd
  rw [Real.exp_neg]
  have := Real.exp_pos x
  field_simp
  ring

theorem log_fd_neg (x : ℝ) : Real.log (fd (-x)) = x + Real.log (fd x) := by
  have h : fd (-x) = Real.exp x * fd x := by
    rw [← one_sub_fd]
    unfold fd
    have := Real.exp_pos x
    field_simp
    ring
  rw [h, Real.log_mul (Real.exp_pos x).ne' (fd_pos x).ne', Real.log_exp]

theorem fdEntropy_form (x : ℝ) : fdEntropy x = x * (fd x - 1) - Real.log (fd x) := by
  unfold fdEntropy
  rw [one_sub_fd, log_fd_neg, ← one_sub_fd]
  ring

theorem fdEntropy_deriv (x : ℝ) : HasDerivAt fdEntropy (-x * fdDelta x) x := by
  have e : fdEntropy = fun x => x * (fd x - 1) - Real.log (fd x) := funext fdEntropy_form
  rw [e]
  have h := ((hasDerivAt_id x).mul ((fd_deriv x).sub_const 1)).sub ((fd_deriv x).log (fd_pos x).ne')
  refine h.congr_deriv ?_
  have h2 : fdDelta x = fd x * (1 - fd x) := by
    unfold fdDelta fd
    rw [Real.cosh_eq, Real.exp_neg]
    have h0 := Real.exp_pos x
    have h1 : 2 * ((Real.exp x + (Real.exp x)⁻¹) / 2) + 2 = (Real.exp x + 1) ^ 2 / Real.exp x := by
      field_simp
      ring
    rw [h1]
    field_simp
    ring
  have := (fd_pos x).ne'
  simp only [id, one_mul]
  rw [h2]
  field_simp
  ring

theorem fd_antitone : Antitone fd := by
  intro x y h
  unfold fd
  have := Real.exp_le_exp.2 h
  have := Real.exp_pos x
  exact one_div_le_one_div_of_le (by positivity) (by linarith)

section
variable {n1 n2 n3 nb : Nat} [NeZero n1] [NeZero n2] [NeZero n3] {X : Type} [DecidableEq X]

theorem fd_eq_slice (kT : ℝ) (e : Mesh n1 n2 n3 → Fin nb → ℝ) (he : ∀ k n, |e k n / kT| ≤ 709) :
    (fun k n => fermiDirac (e k n / kT)) = fun k n => fd (e k n / kT) := by
  funext k n
  exact fd_eq _ (he k n)

theorem fdDelta_eq_slice (kT : ℝ) (e : Mesh n1 n2 n3 → Fin nb → ℝ) (he : ∀ k n, |e k n / kT| ≤ 709) :
    (fun k n => fermiDiracDelta (e k n / kT) / -kT) = fun k n => fdDelta (e k n / kT) / -kT := by
  funext k n
  rw [fdDelta_eq _ (he k n)]

theorem weights_fd (eps kT : ℝ) (win : Option Window) (e : Mesh n1 n2 n3 → Fin nb → ℝ)
    (he : ∀ k n, |e k n / kT| ≤ 709) (q : Fin 3 → ℝ) (k : Mesh n1 n2 n3) (m n : Fin nb) :
    weights eps kT fermiDirac fermiDiracDelta win e q k m n = weights eps kT fd fdDelta win e q k m n := by
  unfold weights
  rw [fd_eq_slice kT e he, fdDelta_eq_slice kT e he]

/-- C52 (Fermi-Dirac): on the mesh and in the limit `eps = 0`, the documented Brillouin-zone sum is returned. -/
theorem C52_value_fermi (kT : ℝ) (sym : Bool) (e : Mesh n1 n2 n3 → Fin nb → ℝ) (he : ∀ k n, |e k n / kT| ≤ 709)
    (q : Fin 3 → ℝ) (j : Mesh n1 n2 n3) (hj : OnMesh q j) (g : Cpl n1 n2 n3 nb X) (mu nu : X) :
    selfEnergy sym false (fun k m n => (weights 0 kT fermiDirac fermiDiracDelta none e q k m n : ℂ)) (fun _ _ => 0) g none
        mu nu = 2 / ((n1 * n2 * n3 : Nat) : ℂ) * ∑ k, ∑ m, ∑ n, star (g mu k m n) * g nu k m n *
      ((dslope (fun x : ℝ => 1 / (Real.exp (x / kT) + 1)) (e k n) (e (k + j) m) : ℝ) : ℂ) := by
  simp only [weights_fd 0 kT none e he]
  exact C52_value kT fd fdDelta fd_deriv sym e q j hj g mu nu

example (q : Fin 3 → ℝ) (j : Mesh 6 6 1) (hj : OnMesh q j) (g : Cpl 6 6 1 2 (Fin 9)) :=
  C52_value_fermi 0.5 true (fun k n => (n : ℝ) - if k = 0 then 1 else 0) (fun k n => by
    rw [abs_le]
    fin_cases n <;> split <;> norm_num) q j hj g

theorem triangleFactor_fd (eps kT a b c : ℝ) (ha : |a / kT| ≤ 709) (hb : |b / kT| ≤ 709) (hc : |c / kT| ≤ 709) :
    triangleFactor eps kT fermiDirac fermiDiracDelta fermiDiracDeltaPrime a b c =
      triangleFactor eps kT fd fdDelta fdPrime a b c := by
  unfold triangleFactor
  rw [fd_eq _ ha, fd_eq _ hb, fd_eq _ hc, fdDelta_eq _ ha, fdDelta_eq _ hb, fdDelta_eq _ hc, fdPrime_eq _ ha]

/-- C53 (Fermi-Dirac): second divided difference of the Fermi function. -/
theorem C53_value_fermi (kT a b c : ℝ) (ha : |a / kT| ≤ 709) (hb : |b / kT| ≤ 709) (hc : |c / kT| ≤ 709) :
    triangleFactor 0 kT fermiDirac fermiDiracDelta fermiDiracDeltaPrime a b c =
      divDiff2 (fun x => 1 / (Real.exp (x / kT) + 1)) a b c := by
  rw [triangleFactor_fd 0 kT a b c ha hb hc]
  exact C53_value kT fd fdDelta fdPrime fd_deriv fdDelta_deriv a b c

example := C53_value_fermi 0.5 1 (-2) 3 (by norm_num [abs_le]) (by norm_num [abs_le]) (by norm_num [abs_le])

/-- C53 (Fermi-Dirac): continuous. -/
theorem C53_continuous_fermi (kT : ℝ) :
    ContinuousOn (fun x : ℝ × ℝ × ℝ =>
      triangleFactor 0 kT fermiDirac fermiDiracDelta fermiDiracDeltaPrime x.1 x.2.1 x.2.2)
      {x | |x.1 / kT| ≤ 709 ∧ |x.2.1 / kT| ≤ 709 ∧ |x.2.2 / kT| ≤ 709} :=
  (C53_continuous kT fd fdDelta fdPrime fd_deriv fdDelta_deriv fdPrime_continuous).continuousOn.congr
    fun x hx => triangleFactor_fd 0 kT _ _ _ hx.1 hx.2.1 hx.2.2

/-! ### C81: grand potential -/

/-- Specification: grand potential of independent electrons with two spins, per unit cell. -/
noncomputable def omegaSpec (kT : ℝ) (e : Mesh n1 n2 n3 → Fin nb → ℝ) : ℝ :=
  -(2 * kT / (n1 * n2 * n3 : Nat)) * ∑ k, ∑ n, Real.log (1 + Real.exp (-(e k n / kT)))

/-- C81: both branches of the code return the grand potential of independent electrons for Fermi-Dirac occupations. -/
theorem C81_value (kT : ℝ) (e : Mesh n1 n2 n3 → Fin nb → ℝ) (he : ∀ k n, |e k n / kT| ≤ 709) :
    grandPotential kT fermiDirac fermiDiracEntropy e = omegaSpec kT e ∧
    grandPotentialFast kT fermiDirac e = omegaSpec kT e := by
  have h1 : ∀ x : ℝ, Real.log (fd (-x)) = -Real.log (1 + Real.exp (-x)) := by
    intro x
    unfold fd
    rw [one_div, Real.log_inv, add_comm]
  constructor
  · unfold grandPotential omegaSpec
    rw [neg_mul, ← mul_neg, ← Finset.sum_sub_distrib, ← Finset.sum_neg_distrib]
    congr 1
    refine Finset.sum_congr rfl fun k _ => ?_
    rw [← Finset.sum_sub_distrib, ← Finset.sum_neg_distrib]
    refine Finset.sum_congr rfl fun n _ => ?_
    rw [← h1, fd_eq _ (he k n), fdEntropy_eq _ (he k n), fdEntropy_form, log_fd_neg]
    ring
  · unfold grandPotentialFast omegaSpec
    rw [neg_mul, ← mul_neg, ← Finset.sum_neg_distrib]
    congr 1
    refine Finset.sum_congr rfl fun k _ => ?_
    rw [← Finset.sum_neg_distrib]
    refine Finset.sum_congr rfl fun n _ => ?_
    rw [← h1, fd_eq _ (by rw [abs_neg]; exact he k n)]

/-- Contribution of one energy. -/
noncomputable def omega1 (kT : ℝ) (occ entropy : ℝ → ℝ) (x : ℝ) : ℝ := kT * (occ (x / kT) * (x / kT) - entropy (x / kT))

theorem grandPotential_eq (kT : ℝ) (occ entropy : ℝ → ℝ) (e : Mesh n1 n2 n3 → Fin nb → ℝ) :
    grandPotential kT occ entropy e = 2 / (n1 * n2 * n3 : Nat) * ∑ k, ∑ n, omega1 kT occ entropy (e k n) := by
  unfold grandPotential omega1
  simp only [← Finset.sum_sub_distrib, ← Finset.mul_sum]
  ring

theorem omega1_deriv (kT : ℝ) (hkT : kT ≠ 0) (occ delta entropy : ℝ → ℝ) (h1 : ∀ x, HasDerivAt occ (-delta x) x)
    (h3 : ∀ x, HasDerivAt entropy (-x * delta x) x) (x : ℝ) :
    HasDerivAt (omega1 kT occ entropy) (occ (x / kT)) x := by
  unfold omega1
  have hx := (hasDerivAt_id x).div_const kT
  have := ((((h1 (x / kT)).comp x hx).mul hx).sub ((h3 (x / kT)).comp x hx)).const_mul kT
  refine this.congr_deriv ?_
  simp only [Function.comp, id]
  field_simp
  ring

/-- C81: `first_order` is the derivative of `grand_potential` for a perturbation of the energies. -/
theorem C81_derivative (kT : ℝ) (hkT : kT ≠ 0) (occ delta entropy : ℝ → ℝ) (h1 : ∀ x, HasDerivAt occ (-delta x) x)
    (h3 : ∀ x, HasDerivAt entropy (-x * delta x) x) (e v : Mesh n1 n2 n3 → Fin nb → ℝ)
    (g : Mesh n1 n2 n3 → Fin nb → Fin nb → ℂ) (hg : ∀ k n, g k n n = v k n) :
    ∃ r : ℝ, firstOrder kT occ e g = r ∧
      HasDerivAt (fun t => grandPotential kT occ entropy fun k n => e k n + t * v k n) r 0 := by
  refine ⟨2 / (n1 * n2 * n3 : Nat) * ∑ k, ∑ n, occ (e k n / kT) * v k n, ?_, ?_⟩
  · unfold firstOrder
    simp only [hg]
    push_cast
    rfl
  · simp only [grandPotential_eq]
    refine HasDerivAt.const_mul _ (HasDerivAt.fun_sum fun k _ => HasDerivAt.fun_sum fun n _ => ?_)
    have hin : HasDerivAt (fun t => e k n + t * v k n) (v k n) 0 := by
      have := ((hasDerivAt_id (0 : ℝ)).mul_const (v k n)).const_add (e k n)
      exact this.congr_deriv (by simp)
    have ho := omega1_deriv kT hkT occ delta entropy h1 h3 (e k n)
    have ho' : HasDerivAt (omega1 kT occ entropy) (occ (e k n / kT)) (e k n + 0 * v k n) := by
      rw [zero_mul, add_zero]
      exact ho
    exact HasDerivAt.comp (h₂ := omega1 kT occ entropy) 0 ho' hin

theorem omega1_concave (kT : ℝ) (hkT : 0 < kT) (occ delta entropy : ℝ → ℝ) (h1 : ∀ x, HasDerivAt occ (-delta x) x)
    (h3 : ∀ x, HasDerivAt entropy (-x * delta x) x) (ha : Antitone occ) :
    ConcaveOn ℝ Set.univ (omega1 kT occ entropy) := by
  have hd := omega1_deriv kT hkT.ne' occ delta entropy h1 h3
  have hderiv : deriv (omega1 kT occ entropy) = fun x => occ (x / kT) := funext fun x => (hd x).deriv
  refine Antitone.concaveOn_univ_of_deriv (fun x => (hd x).differentiableAt) ?_
  rw [hderiv]
  intro x y h
  exact ha (div_le_div_of_nonneg_right h hkT.le)

theorem omega1_tangent (kT : ℝ) (hkT : 0 < kT) (occ delta entropy : ℝ → ℝ) (h1 : ∀ x, HasDerivAt occ (-delta x) x)
    (h3 : ∀ x, HasDerivAt entropy (-x * delta x) x) (ha : Antitone occ) (x y : ℝ) :
    omega1 kT occ entropy y ≤ omega1 kT occ entropy x + occ (x / kT) * (y - x) := by
  have hc := omega1_concave kT hkT occ delta entropy h1 h3 ha
  have hd := omega1_deriv kT hkT.ne' occ delta entropy h1 h3 x
  rcases lt_trichotomy x y with h | h | h
  · have := hc.slope_le_of_hasDerivAt (Set.mem_univ x) (Set.mem_univ y) h hd
    rw [slope_def_field, div_le_iff₀ (by linarith)] at this
    linarith
  · rw [h]
    simp
  · have := hc.le_slope_of_hasDerivAt (Set.mem_univ y) (Set.mem_univ x) h hd
    rw [slope_def_field, le_div_iff₀ (by linarith)] at this
    linarith

/-- C81: variational property (Gibbs-Bogoliubov inequality): the grand potential of the perturbed Hamiltonian, whose
eigenvalues and eigenvectors are `e'` and the columns of `S`, never exceeds the first-order estimate. -/
theorem C81_variational (kT : ℝ) (hkT : 0 < kT) (occ delta entropy : ℝ → ℝ) (h1 : ∀ x, HasDerivAt occ (-delta x) x)
    (h3 : ∀ x, HasDerivAt entropy (-x * delta x) x) (ha : Antitone occ) (e e' : Mesh n1 n2 n3 → Fin nb → ℝ)
    (S V : Mesh n1 n2 n3 → Fin nb → Fin nb → ℂ) (hrow : ∀ k a b, ∑ i, S k a i * star (S k b i) = if a = b then 1 else 0)
    (hcol : ∀ k i j, ∑ a, star (S k a i) * S k a j = if i = j then 1 else 0)
    (hV : ∀ k a b, (if a = b then (e k a : ℂ) else 0) + V k a b = ∑ i, S k a i * (e' k i : ℂ) * star (S k b i)) :
    grandPotential kT occ entropy e' ≤ grandPotential kT occ entropy e + (firstOrder kT occ e V).re := by
  have hns : ∀ z : ℂ, z * star z = ((‖z‖ ^ 2 : ℝ) : ℂ) := by
    intro z
    push_cast
    exact Complex.mul_conj' z
  have hns' : ∀ z : ℂ, star z * z = ((‖z‖ ^ 2 : ℝ) : ℂ) := by
    intro z
    push_cast
    exact Complex.conj_mul' z
  have hrow' : ∀ k a, ∑ i, ‖S k a i‖ ^ 2 = 1 := by
    intro k a
    have := hrow k a a
    simp only [hns, if_true] at this
    exact_mod_cast this
  have hcol' : ∀ k i, ∑ a, ‖S k a i‖ ^ 2 = 1 := by
    intro k i
    have := hcol k i i
    simp only [hns', if_true] at this
    exact_mod_cast this
  have hVa : ∀ k a, e k a + (V k a a).re = ∑ i, ‖S k a i‖ ^ 2 * e' k i := by
    intro k a
    have h := congrArg Complex.re (hV k a a)
    have h2 : ∀ i, S k a i * (e' k i : ℂ) * star (S k a i) = ((‖S k a i‖ ^ 2 * e' k i : ℝ) : ℂ) := by
      intro i
      rw [mul_right_comm, hns]
      push_cast
      ring
    simp only [h2, if_true, ← Complex.ofReal_sum] at h
    rwa [Complex.ofReal_re, Complex.add_re, Complex.ofReal_re] at h
  have hre : (firstOrder kT occ e V).re = 2 / (n1 * n2 * n3 : Nat) * ∑ k, ∑ a, occ (e k a / kT) * (V k a a).re := by
    unfold firstOrder
    have : (2 / ((n1 * n2 * n3 : Nat) : ℂ)) = ((2 / ((n1 * n2 * n3 : Nat) : ℝ) : ℝ) : ℂ) := by push_cast; rfl
    rw [this, Complex.re_ofReal_mul, Complex.re_sum]
    congr 1
    refine Finset.sum_congr rfl fun k _ => ?_
    rw [Complex.re_sum]
    exact Finset.sum_congr rfl fun a _ => Complex.re_ofReal_mul _ _
  rw [hre, grandPotential_eq, grandPotential_eq, ← mul_add]
  refine mul_le_mul_of_nonneg_left ?_ (by positivity)
  rw [← Finset.sum_add_distrib]
  refine Finset.sum_le_sum fun k _ => ?_
  rw [← Finset.sum_add_distrib]
  have hc := omega1_concave kT hkT occ delta entropy h1 h3 ha
  calc ∑ i, omega1 kT occ entropy (e' k i) = ∑ i, (∑ a, ‖S k a i‖ ^ 2) * omega1 kT occ entropy (e' k i) := by
        simp [hcol']
    _ = ∑ a, ∑ i, ‖S k a i‖ ^ 2 * omega1 kT occ entropy (e' k i) := by
        simp only [Finset.sum_mul]
        rw [Finset.sum_comm]
    _ ≤ ∑ a, omega1 kT occ entropy (∑ i, ‖S k a i‖ ^ 2 * e' k i) := by
        refine Finset.sum_le_sum fun a _ => ?_
        have := hc.le_map_sum (t := Finset.univ) (w := fun i => ‖S k a i‖ ^ 2) (p := fun i => e' k i)
          (fun i _ => sq_nonneg _) (hrow' k a) (fun i _ => Set.mem_univ _)
        simpa only [smul_eq_mul] using this
    _ ≤ ∑ a, (omega1 kT occ entropy (e k a) + occ (e k a / kT) * (V k a a).re) := by
        refine Finset.sum_le_sum fun a _ => ?_
        rw [← hVa]
        have := omega1_tangent kT hkT occ delta entropy h1 h3 ha (e k a) (e k a + (V k a a).re)
        simpa using this

theorem grandPotential_fd (kT : ℝ) (e : Mesh n1 n2 n3 → Fin nb → ℝ) (he : ∀ k n, |e k n / kT| ≤ 709) :
    grandPotential kT fermiDirac fermiDiracEntropy e = grandPotential kT fd fdEntropy e := by
  unfold grandPotential
  simp only [fun k n => fd_eq _ (he k n), fun k n => fdEntropy_eq _ (he k n)]

/-- C81: variational property for Fermi-Dirac occupations, both branches of the code. -/
theorem C81_variational_fermi (kT : ℝ) (hkT : 0 < kT) (e e' : Mesh n1 n2 n3 → Fin nb → ℝ)
    (he : ∀ k n, |e k n / kT| ≤ 709) (he' : ∀ k n, |e' k n / kT| ≤ 709)
    (S V : Mesh n1 n2 n3 → Fin nb → Fin nb → ℂ) (hrow : ∀ k a b, ∑ i, S k a i * star (S k b i) = if a = b then 1 else 0)
    (hcol : ∀ k i j, ∑ a, star (S k a i) * S k a j = if i = j then 1 else 0)
    (hV : ∀ k a b, (if a = b then (e k a : ℂ) else 0) + V k a b = ∑ i, S k a i * (e' k i : ℂ) * star (S k b i)) :
    grandPotentialFast kT fermiDirac e' ≤ grandPotentialFast kT fermiDirac e + (firstOrder kT fermiDirac e V).re := by
  rw [(C81_value kT e he).2, (C81_value kT e' he').2, ← (C81_value kT e he).1, ← (C81_value kT e' he').1,
    grandPotential_fd kT e he, grandPotential_fd kT e' he']
  have hf : firstOrder kT fermiDirac e V = firstOrder kT fd e V := by
    unfold firstOrder
    simp only [fun k n => fd_eq _ (he k n)]
  rw [hf]
  exact C81_variational kT hkT fd fdDelta fdEntropy fd_deriv fdEntropy_deriv fd_antitone e e' S V hrow hcol hV

/-- C81: `first_order` with the perturbation in the basis of orbitals returns the same as in the basis of bands. -/
theorem C81_basis {A : Type} [Fintype A] (kT : ℝ) (occ : ℝ → ℝ) (e : Mesh n1 n2 n3 → Fin nb → ℝ)
    (U : Mesh n1 n2 n3 → A → Fin nb → ℂ) (g : Mesh n1 n2 n3 → A → A → ℂ) :
    firstOrderU kT occ e U g = firstOrder kT occ e fun k m n => ∑ a, ∑ b, star (U k a m) * g k a b * U k b n := by
  unfold firstOrderU firstOrder
  congr 1
  refine Finset.sum_congr rfl fun k _ => ?_
  simp only [Finset.sum_mul, Finset.mul_sum]
  rw [Finset.sum_comm]
  have : ∀ b, ∑ a, ∑ m, U k a m * (occ (e k m / kT) : ℂ) * star (U k b m) * g k b a =
      ∑ m, ∑ a, U k a m * (occ (e k m / kT) : ℂ) * star (U k b m) * g k b a := fun b => Finset.sum_comm
  simp only [this]
  rw [Finset.sum_comm]
  refine Finset.sum_congr rfl fun m _ => Finset.sum_congr rfl fun b _ => Finset.sum_congr rfl fun a _ => ?_
  ring

end

/-- Two levels with off-diagonal perturbation. -/
example (t : ℝ) (ht : |t| ≤ 709) : ∃ (e e' : Mesh 1 1 1 → Fin 2 → ℝ) (S V : Mesh 1 1 1 → Fin 2 → Fin 2 → ℂ),
    (∀ k n, |e k n / 1| ≤ 709) ∧ (∀ k n, |e' k n / 1| ≤ 709) ∧
    (∀ k a b, ∑ i, S k a i * star (S k b i) = if a = b then 1 else 0) ∧
    (∀ k i j, ∑ a, star (S k a i) * S k a j = if i = j then 1 else 0) ∧
    (∀ k a b, (if a = b then (e k a : ℂ) else 0) + V k a b = ∑ i, S k a i * (e' k i : ℂ) * star (S k b i)) ∧
    ∀ k, V k 0 1 = t := by
  have hs : ((Real.sqrt 2 : ℝ) : ℂ) * ((Real.sqrt 2 : ℝ) : ℂ) = 2 := by
    rw [← Complex.ofReal_mul, Real.mul_self_sqrt (by norm_num)]
    norm_num
  have hs' : ((Real.sqrt 2 : ℝ) : ℂ)⁻¹ * ((Real.sqrt 2 : ℝ) : ℂ)⁻¹ = 1 / 2 := by
    rw [← mul_inv, hs]
    norm_num
  have hst : star (((Real.sqrt 2 : ℝ) : ℂ)⁻¹) = ((Real.sqrt 2 : ℝ) : ℂ)⁻¹ := by
    rw [star_inv₀, star_real]
  refine ⟨fun _ _ => 0, fun _ n => if n = 0 then t else -t, fun _ a i =>
    if a = 1 ∧ i = 1 then -(((Real.sqrt 2 : ℝ) : ℂ)⁻¹) else ((Real.sqrt 2 : ℝ) : ℂ)⁻¹,
    fun _ a b => if a = b then 0 else t, ?_, ?_, ?_, ?_, ?_, ?_⟩
  · intro k n
    simp
  · intro k n
    fin_cases n <;> simp [ht]
  · intro k a b
    fin_cases a <;> fin_cases b <;> simp [Fin.sum_univ_two, hst, hs'] <;> norm_num
  · intro k a b
    fin_cases a <;> fin_cases b <;> simp [Fin.sum_univ_two, hst, hs'] <;> norm_num
  · intro k a b
    fin_cases a <;> fin_cases b <;> simp [Fin.sum_univ_two, hst] <;>
      linear_combination (-2 * (t : ℂ)) * hs'
  · intro k
    simp

end Verif.Diag
