import Verif.Diag.Mesh
import Verif.MPI.Props
import Mathlib.Analysis.Calculus.DSlope
import Mathlib.Analysis.Calculus.MeanValue
import Mathlib.Algebra.Order.BigOperators.Ring.Finset

/-!
# Phonon self-energy (C52, C79)
-/

namespace Verif.Diag

open Verif.Occ (gauss gaussDelta gaussDelta_pos C35_gauss C36_gauss)

section
variable {n1 n2 n3 nb : Nat} [NeZero n1] [NeZero n2] [NeZero n3] {X : Type} [DecidableEq X]

/-! ### C52: Hermiticity -/

theorem star_real (x : ℝ) : star (x : ℂ) = (x : ℂ) := Complex.conj_ofReal x

theorem star_pre : star (2 / ((n1 * n2 * n3 : Nat) : ℂ)) = 2 / ((n1 * n2 * n3 : Nat) : ℂ) := by
  have : (2 / ((n1 * n2 * n3 : Nat) : ℂ)) = ((2 / ((n1 * n2 * n3 : Nat) : ℝ) : ℝ) : ℂ) := by push_cast; rfl
  rw [this, star_real]

theorem contact_hermitian (w : Mesh n1 n2 n3 → Fin nb → Fin nb → ℝ) (U : Fin nb → Fin nb → ℝ) (g : Cpl n1 n2 n3 nb X)
    (mu nu : X) :
    star (contact (fun k m n => (w k m n : ℂ)) U g g mu nu) = contact (fun k m n => (w k m n : ℂ)) U g g nu mu := by
  unfold contact
  simp only [star_sum, star_mul', star_div₀, star_sub, star_one, star_real, star_star]
  have h2 : star (2 : ℂ) = 2 := by
    rw [show (2 : ℂ) = ((2 : ℝ) : ℂ) by push_cast; rfl, star_real]
  have hN : star ((n1 * n2 * n3 : Nat) : ℂ) = ((n1 * n2 * n3 : Nat) : ℂ) := by
    rw [show ((n1 * n2 * n3 : Nat) : ℂ) = ((n1 * n2 * n3 : Nat) : ℝ) by push_cast; rfl, star_real]
  rw [h2, hN]
  refine Finset.sum_congr rfl fun m _ => Finset.sum_congr rfl fun n _ => ?_
  have e1 : ∀ x, ∑ k, g x k m n * (w k m n : ℂ) = ∑ k, (w k m n : ℂ) * g x k m n := fun x =>
    Finset.sum_congr rfl fun k _ => mul_comm _ _
  have e2 : ∀ x, ∑ k, (w k m n : ℂ) * star (g x k m n) = ∑ k, star (g x k m n) * (w k m n : ℂ) := fun x =>
    Finset.sum_congr rfl fun k _ => mul_comm _ _
  rw [e1, e2]
  ring

/-- C52: the static phonon self-energy is Hermitian, with or without excluded window, contact interaction and
off-diagonal elements. -/
theorem C52_hermitian (eps kT : ℝ) (occ delta : ℝ → ℝ) (win : Option Window) (symmetrize diagonal : Bool)
    (U : Fin nb → Fin nb → ℝ) (e : Mesh n1 n2 n3 → Fin nb → ℝ) (q : Fin 3 → ℝ) (g : Cpl n1 n2 n3 nb X) (mu nu : X) :
    star (selfEnergy symmetrize diagonal (fun k m n => (weights eps kT occ delta win e q k m n : ℂ)) U g none mu nu) =
      selfEnergy symmetrize diagonal (fun k m n => (weights eps kT occ delta win e q k m n : ℂ)) U g none nu mu := by
  unfold selfEnergy
  rw [star_add, Option.getD_none, contact_hermitian, star_mul', star_pre]
  congr 2
  simp only [star_sum]
  refine Finset.sum_congr rfl fun k _ => Finset.sum_congr rfl fun m _ => Finset.sum_congr rfl fun n _ => ?_
  unfold piK
  by_cases h : diagonal ∧ mu ≠ nu
  · rw [if_pos h, if_pos ⟨h.1, h.2.symm⟩]
    simp
  · rw [if_neg h, if_neg fun h' => h ⟨h'.1, h'.2.symm⟩]
    simp only [star_mul', star_star, star_real]
    ring

/-- C52: with different couplings on both sides, the static phonon self-energy is Hermitian if symmetrized and there is
no contact interaction. -/
theorem C52_hermitian_symmetrize (eps kT : ℝ) (occ delta : ℝ → ℝ) (win : Option Window) (diagonal : Bool)
    (e : Mesh n1 n2 n3 → Fin nb → ℝ) (q : Fin 3 → ℝ) (g G : Cpl n1 n2 n3 nb X) (mu nu : X) :
    star (selfEnergy true diagonal (fun k m n => (weights eps kT occ delta win e q k m n : ℂ)) (fun _ _ => 0) g (some G)
        mu nu) =
      selfEnergy true diagonal (fun k m n => (weights eps kT occ delta win e q k m n : ℂ)) (fun _ _ => 0) g (some G)
        nu mu := by
  have h2 : star (2 : ℂ) = 2 := by
    rw [show (2 : ℂ) = ((2 : ℝ) : ℂ) by push_cast; rfl, star_real]
  unfold selfEnergy contact
  simp only [Complex.ofReal_zero, zero_div, mul_zero, zero_mul, Finset.sum_const_zero, add_zero]
  rw [star_mul', star_pre]
  congr 1
  simp only [star_sum]
  refine Finset.sum_congr rfl fun k _ => Finset.sum_congr rfl fun m _ => Finset.sum_congr rfl fun n _ => ?_
  unfold piK
  by_cases h : diagonal ∧ mu ≠ nu
  · rw [if_pos h, if_pos ⟨h.1, h.2.symm⟩]
    simp
  · rw [if_neg h, if_neg fun h' => h ⟨h'.1, h'.2.symm⟩]
    simp only [if_true, star_mul', star_star, star_real, star_div₀, star_add, h2]
    ring

/-- C52: with a contact interaction and different couplings on both sides, the result is not Hermitian despite
`symmetrize`. -/
theorem C52_contact_violated : ∃ (e : Mesh 1 1 1 → Fin 1 → ℝ) (U : Fin 1 → Fin 1 → ℝ) (g G : Cpl 1 1 1 1 (Fin 2)),
    star (selfEnergy true false (fun k m n => (weights 0 1 gauss gaussDelta none e (fun _ => 0) k m n : ℂ)) U g (some G)
        0 1) ≠
      selfEnergy true false (fun k m n => (weights 0 1 gauss gaussDelta none e (fun _ => 0) k m n : ℂ)) U g (some G)
        1 0 := by
  refine ⟨fun _ _ => 0, fun _ _ => 1, fun x _ _ _ => if x = 0 then 1 else 0, fun x _ _ _ => if x = 1 then 1 else 0, ?_⟩
  have hd := gaussDelta_pos 0
  have hw : ∀ k m n, weights (n1 := 1) (n2 := 1) (n3 := 1) (nb := 1) 0 1 gauss gaussDelta none (fun _ _ => 0)
      (fun _ => 0) k m n = - gaussDelta 0 := by
    intro k m n
    unfold weights dfde envelope
    simp [slice_eq, div_neg]
  have hk : (Finset.univ : Finset (Mesh 1 1 1)) = {(0, 0, 0)} := by decide
  have h3 : (1 : ℂ) + 2 * (gaussDelta 0 : ℂ) ≠ 0 := by
    have : (1 : ℝ) + 2 * gaussDelta 0 ≠ 0 := by positivity
    exact_mod_cast this
  have hd' : (gaussDelta 0 : ℂ) ≠ 0 := Complex.ofReal_ne_zero.2 hd.ne'
  have h2 : star (2 : ℂ) = 2 := by
    rw [show (2 : ℂ) = ((2 : ℝ) : ℂ) by push_cast; rfl, star_real]
  unfold selfEnergy contact piK
  simp only [hw, hk]
  simp
  exact ⟨⟨hd.ne', h3⟩, hd.ne'⟩

/-! ### C52: negative semidefinite -/

theorem dfde_nonpos (eps kT : ℝ) (hkT : 0 < kT) (occ delta : ℝ → ℝ) (ho : Antitone occ) (hd : ∀ x, 0 ≤ delta x)
    (e : Mesh n1 n2 n3 → Fin nb → ℝ) (q : Nat × Nat × Nat) (k : Mesh n1 n2 n3) (m n : Fin nb) :
    dfde eps e (fun k n => occ (e k n / kT)) (fun k n => delta (e k n / kT) / -kT) q k m n ≤ 0 := by
  unfold dfde
  simp only
  split
  · rw [slice_eq, slice_eq]
    generalize e (k + _) m = e'
    rcases le_total e' (e k n) with h | h
    · have := ho (div_le_div_of_nonneg_right h hkT.le)
      exact div_nonpos_of_nonpos_of_nonneg (by linarith) (by linarith)
    · have := ho (div_le_div_of_nonneg_right h hkT.le)
      exact div_nonpos_of_nonneg_of_nonpos (by linarith) (by linarith)
  · rw [div_neg, neg_nonpos]
    exact div_nonneg (hd _) hkT.le

/-- A window which is not a derivative and whose step function does not exceed one. -/
def Window.Good (win : Option Window) : Prop := ∀ w, win = some w → w.diff = false ∧ ∀ x, w.occ x ≤ 1

theorem envelope_nonneg (win : Option Window) (hw : Window.Good win) (e : Mesh n1 n2 n3 → Fin nb → ℝ)
    (q : Nat × Nat × Nat) (k : Mesh n1 n2 n3) (m n : Fin nb) : 0 ≤ envelope win e q k m n := by
  unfold envelope
  cases win with
  | none => exact zero_le_one
  | some w =>
    obtain ⟨h1, h2⟩ := hw w rfl
    simp only [h1]
    apply mul_nonneg
    · unfold Window.Theta
      linarith [h2 ((slice e q k m - w.Delta) / w.kT), h2 ((-slice e q k m - w.Delta) / w.kT)]
    · unfold Window.Theta
      linarith [h2 ((e k n - w.Delta) / w.kT), h2 ((-e k n - w.Delta) / w.kT)]

theorem weights_nonpos (eps kT : ℝ) (hkT : 0 < kT) (occ delta : ℝ → ℝ) (ho : Antitone occ) (hd : ∀ x, 0 ≤ delta x)
    (win : Option Window) (hw : Window.Good win) (e : Mesh n1 n2 n3 → Fin nb → ℝ) (q : Fin 3 → ℝ) (k : Mesh n1 n2 n3)
    (m n : Fin nb) : weights eps kT occ delta win e q k m n ≤ 0 :=
  mul_nonpos_of_nonpos_of_nonneg (dfde_nonpos eps kT hkT occ delta ho hd e _ k m n) (envelope_nonneg win hw e _ k m n)

theorem quadratic [Fintype X] (w : Mesh n1 n2 n3 → Fin nb → Fin nb → ℝ) (g : Cpl n1 n2 n3 nb X) (sym : Bool)
    (v : X → ℂ) :
    ∑ mu, ∑ nu, star (v mu) * selfEnergy sym false (fun k m n => (w k m n : ℂ)) (fun _ _ => 0) g none mu nu * v nu =
      ((2 / ((n1 * n2 * n3 : Nat) : ℝ) * ∑ k, ∑ m, ∑ n, w k m n * ‖∑ nu, g nu k m n * v nu‖ ^ 2 : ℝ) : ℂ) := by
  have h1 : ∀ mu nu, star (v mu) * selfEnergy sym false (fun k m n => (w k m n : ℂ)) (fun _ _ => 0) g none mu nu * v nu =
      2 / ((n1 * n2 * n3 : Nat) : ℂ) * ∑ k, ∑ m, ∑ n, (w k m n : ℂ) * (star (g mu k m n * v mu) * (g nu k m n * v nu)) := by
    intro mu nu
    unfold selfEnergy contact piK
    simp only [Complex.ofReal_zero, zero_div, mul_zero, zero_mul, Finset.sum_const_zero, add_zero, Bool.false_eq_true,
      false_and, if_false]
    rw [mul_comm (star (v mu)), mul_assoc, mul_assoc]
    congr 1
    simp only [Finset.sum_mul]
    refine Finset.sum_congr rfl fun k _ => Finset.sum_congr rfl fun m _ => Finset.sum_congr rfl fun n _ => ?_
    rw [star_mul']
    ring
  simp only [h1]
  simp only [← Finset.mul_sum]
  push_cast
  congr 1
  have h2 : ∀ F : X → X → Mesh n1 n2 n3 → Fin nb → Fin nb → ℂ, ∑ mu, ∑ nu, ∑ k, ∑ m, ∑ n, F mu nu k m n =
      ∑ k, ∑ m, ∑ n, ∑ mu, ∑ nu, F mu nu k m n := by
    intro F
    have a1 : ∀ mu, ∑ nu, ∑ k, ∑ m, ∑ n, F mu nu k m n = ∑ k, ∑ m, ∑ n, ∑ nu, F mu nu k m n := by
      intro mu
      rw [Finset.sum_comm]
      refine Finset.sum_congr rfl fun k _ => ?_
      rw [Finset.sum_comm]
      refine Finset.sum_congr rfl fun m _ => ?_
      rw [Finset.sum_comm]
    simp only [a1]
    rw [Finset.sum_comm]
    refine Finset.sum_congr rfl fun k _ => ?_
    rw [Finset.sum_comm]
    refine Finset.sum_congr rfl fun m _ => ?_
    rw [Finset.sum_comm]
  rw [h2]
  refine Finset.sum_congr rfl fun k _ => Finset.sum_congr rfl fun m _ => Finset.sum_congr rfl fun n _ => ?_
  simp only [← Finset.mul_sum]
  rw [← Finset.sum_mul, ← star_sum]
  congr 1
  exact (Complex.conj_mul' _)

/-- C52: the static phonon self-energy is negative semidefinite, it never hardens phonons. -/
theorem C52_negative [Fintype X] (eps kT : ℝ) (hkT : 0 < kT) (occ delta : ℝ → ℝ) (ho : Antitone occ)
    (hd : ∀ x, 0 ≤ delta x) (win : Option Window) (hw : Window.Good win) (sym : Bool)
    (e : Mesh n1 n2 n3 → Fin nb → ℝ) (q : Fin 3 → ℝ) (g : Cpl n1 n2 n3 nb X) (v : X → ℂ) :
    ∃ r : ℝ, r ≤ 0 ∧ ∑ mu, ∑ nu, star (v mu) *
      selfEnergy sym false (fun k m n => (weights eps kT occ delta win e q k m n : ℂ)) (fun _ _ => 0) g none mu nu *
        v nu = r := by
  refine ⟨_, ?_, quadratic _ g sym v⟩
  apply mul_nonpos_of_nonneg_of_nonpos (by positivity)
  refine Finset.sum_nonpos fun k _ => Finset.sum_nonpos fun m _ => Finset.sum_nonpos fun n _ => ?_
  exact mul_nonpos_of_nonpos_of_nonneg (weights_nonpos eps kT hkT occ delta ho hd win hw e q k m n) (sq_nonneg _)

/-- C52: diagonal elements (`diagonal`) as well. -/
theorem C52_negative_diagonal (eps kT : ℝ) (hkT : 0 < kT) (occ delta : ℝ → ℝ) (ho : Antitone occ)
    (hd : ∀ x, 0 ≤ delta x) (win : Option Window) (hw : Window.Good win) (e : Mesh n1 n2 n3 → Fin nb → ℝ)
    (q : Fin 3 → ℝ) (g : Cpl n1 n2 n3 nb X) (nu : X) :
    ∃ r : ℝ, r ≤ 0 ∧ selfEnergy2 (fun k m n => (weights eps kT occ delta win e q k m n : ℂ))
      (fun nu k m n => ((‖g nu k m n‖ ^ 2 : ℝ) : ℂ)) nu = r ∧
      ∀ sym diag, selfEnergy sym diag (fun k m n => (weights eps kT occ delta win e q k m n : ℂ)) (fun _ _ => 0) g none
        nu nu = r := by
  have h : ∀ sym diag, selfEnergy sym diag (fun k m n => (weights eps kT occ delta win e q k m n : ℂ)) (fun _ _ => 0) g
      none nu nu = ((2 / ((n1 * n2 * n3 : Nat) : ℝ) * ∑ k, ∑ m, ∑ n, ‖g nu k m n‖ ^ 2 *
        weights eps kT occ delta win e q k m n : ℝ) : ℂ) := by
    intro sym diag
    unfold selfEnergy contact piK
    simp only [Complex.ofReal_zero, zero_div, mul_zero, zero_mul, Finset.sum_const_zero, add_zero, ne_eq,
      not_true_eq_false, and_false, if_false]
    push_cast
    congr 1
    refine Finset.sum_congr rfl fun k _ => Finset.sum_congr rfl fun m _ => Finset.sum_congr rfl fun n _ => ?_
    congr 1
    exact Complex.conj_mul' _
  refine ⟨_, ?_, ?_, h⟩
  · apply mul_nonpos_of_nonneg_of_nonpos (by positivity)
    refine Finset.sum_nonpos fun k _ => Finset.sum_nonpos fun m _ => Finset.sum_nonpos fun n _ => ?_
    exact mul_nonpos_of_nonneg_of_nonpos (sq_nonneg _) (weights_nonpos eps kT hkT occ delta ho hd win hw e q k m n)
  · unfold selfEnergy2
    push_cast
    rfl

example (e : Mesh 6 6 1 → Fin 2 → ℝ) (q : Fin 3 → ℝ) (g : Cpl 6 6 1 2 (Fin 9)) :=
  C52_negative_diagonal 1e-10 0.025 (by norm_num) gauss gaussDelta C35_gauss.anti.antitone (fun x => (gaussDelta_pos x).le) none
    (fun w hw => absurd hw (by simp)) e q g

/-- C52: the result does not depend on the number of processes. -/
theorem C52_processes (s1 s2 : Nat) (h1 : 0 < s1) (h2 : 0 < s2) (eps kT : ℝ) (occ delta : ℝ → ℝ) (win : Option Window)
    (symmetrize diagonal : Bool) (U : Fin nb → Fin nb → ℝ) (e : Mesh n1 n2 n3 → Fin nb → ℝ)
    (q : List ((Fin 3 → ℝ) × Cpl n1 n2 n3 nb X × Option (Cpl n1 n2 n3 nb X))) :
    phononSelfEnergy s1 eps kT occ delta win symmetrize diagonal U e q =
      phononSelfEnergy s2 eps kT occ delta win symmetrize diagonal U e q ∧
    ∃ l, phononSelfEnergy s1 eps kT occ delta win symmetrize diagonal U e q = some l ∧ l.length = q.length := by
  unfold phononSelfEnergy
  rw [Verif.MPI.C02_parMap s1 h1, Verif.MPI.C02_parMap s2 h2]
  exact ⟨rfl, _, rfl, List.length_map _⟩

example (e : Mesh 6 6 1 → Fin 2 → ℝ) (q : List ((Fin 3 → ℝ) × Cpl 6 6 1 2 (Fin 9) × Option (Cpl 6 6 1 2 (Fin 9)))) :=
  C52_processes 1 7 (by norm_num) (by norm_num) 1e-10 0.025 gauss gaussDelta none true false (fun _ _ => 0) e q

/-! ### C52: value -/

/-- Specification: difference quotient of the occupations of two energies, the derivative for equal energies
(`dslope` of Mathlib). -/
noncomputable def quotient (kT : ℝ) (occ : ℝ → ℝ) (a b : ℝ) : ℝ := dslope (fun x => occ (x / kT)) a b

theorem occ_hasDerivAt (kT : ℝ) (occ delta : ℝ → ℝ) (h : ∀ x, HasDerivAt occ (-delta x) x) (x : ℝ) :
    HasDerivAt (fun x => occ (x / kT)) (delta (x / kT) / -kT) x := by
  have := (h (x / kT)).comp x ((hasDerivAt_id x).div_const kT)
  refine this.congr_deriv ?_
  rw [div_neg]
  ring

theorem weights_quotient (kT : ℝ) (occ delta : ℝ → ℝ) (h : ∀ x, HasDerivAt occ (-delta x) x)
    (e : Mesh n1 n2 n3 → Fin nb → ℝ) (q : Fin 3 → ℝ) (j : Mesh n1 n2 n3) (hj : OnMesh q j) (k : Mesh n1 n2 n3)
    (m n : Fin nb) : weights 0 kT occ delta none e q k m n = quotient kT occ (e k n) (e (k + j) m) := by
  unfold weights envelope
  simp only [mul_one]
  unfold dfde quotient
  simp only [slice_q _ q j k hj]
  by_cases hz : e (k + j) m = e k n
  · rw [hz, dslope_same, (occ_hasDerivAt kT occ delta h _).deriv, if_neg]
    simp
  · rw [dslope_of_ne _ hz, slope_def_field, if_pos]
    · rw [← neg_sub (occ (e (k + j) m / kT)), ← neg_sub (e (k + j) m), neg_div_neg_eq]
    · exact abs_pos.2 (sub_ne_zero.2 fun h => hz h.symm)

/-- C52: on the mesh and in the limit `eps = 0`, the documented Brillouin-zone sum is returned. -/
theorem C52_value (kT : ℝ) (occ delta : ℝ → ℝ) (h : ∀ x, HasDerivAt occ (-delta x) x) (sym : Bool)
    (e : Mesh n1 n2 n3 → Fin nb → ℝ) (q : Fin 3 → ℝ) (j : Mesh n1 n2 n3) (hj : OnMesh q j) (g : Cpl n1 n2 n3 nb X)
    (mu nu : X) :
    selfEnergy sym false (fun k m n => (weights 0 kT occ delta none e q k m n : ℂ)) (fun _ _ => 0) g none mu nu =
      2 / ((n1 * n2 * n3 : Nat) : ℂ) * ∑ k, ∑ m, ∑ n, star (g mu k m n) * g nu k m n *
        (quotient kT occ (e k n) (e (k + j) m) : ℂ) := by
  unfold selfEnergy contact piK
  simp only [Complex.ofReal_zero, zero_div, mul_zero, zero_mul, Finset.sum_const_zero, add_zero, Bool.false_eq_true,
    false_and, if_false, weights_quotient kT occ delta h e q j hj]

example (e : Mesh 6 6 1 → Fin 2 → ℝ) (g : Cpl 6 6 1 2 (Fin 9)) :=
  C52_value 0.025 gauss gaussDelta (fun x => (C36_gauss x).1) true e ![2 * Real.pi * (1 / 6 + 3), 0, 0] (1, 0, 0)
    ⟨![3, 0, 0], by norm_num, by norm_num, by simp⟩ g

/-- C52: the self-energies for `q` and `-q` are complex conjugates of each other if the coupling is that of a Hermitian
perturbation. -/
theorem C52_inversion (kT : ℝ) (occ delta : ℝ → ℝ) (h : ∀ x, HasDerivAt occ (-delta x) x) (sym : Bool)
    (e : Mesh n1 n2 n3 → Fin nb → ℝ) (q p : Fin 3 → ℝ) (j : Mesh n1 n2 n3) (hq : OnMesh q j) (hp : OnMesh p (-j))
    (g G : Cpl n1 n2 n3 nb X) (hg : ∀ x k m n, G x (k + j) n m = star (g x k m n)) (mu nu : X) :
    selfEnergy sym false (fun k m n => (weights 0 kT occ delta none e p k m n : ℂ)) (fun _ _ => 0) G none mu nu =
      star (selfEnergy sym false (fun k m n => (weights 0 kT occ delta none e q k m n : ℂ)) (fun _ _ => 0) g none
        mu nu) := by
  have hc : ∀ a b, quotient kT occ a b = quotient kT occ b a := by
    intro a b
    unfold quotient
    by_cases hab : a = b
    · rw [hab]
    · rw [dslope_of_ne _ (Ne.symm hab), dslope_of_ne _ hab, slope_comm]
  rw [C52_value kT occ delta h sym e q j hq, C52_value kT occ delta h sym e p (-j) hp, star_mul', star_pre]
  congr 1
  rw [← sum_shift _ j, star_sum]
  refine Finset.sum_congr rfl fun k _ => ?_
  rw [star_sum, Finset.sum_comm]
  refine Finset.sum_congr rfl fun m _ => ?_
  rw [star_sum]
  refine Finset.sum_congr rfl fun n _ => ?_
  rw [hg, hg, add_neg_cancel_right, star_mul', star_mul', star_star, star_real, hc (e (k + j) m)]

example (e : Mesh 6 6 1 → Fin 2 → ℝ) (g : Cpl 6 6 1 2 (Fin 9)) :=
  C52_inversion 0.025 gauss gaussDelta (fun x => (C36_gauss x).1) true e ![2 * Real.pi * (1 / 6 + 3), 0, 0] ![2 * Real.pi * (5 / 6), 0, 0]
    (1, 0, 0) ⟨![3, 0, 0], by norm_num, by norm_num, by simp⟩ ⟨![0, 0, 0], by norm_num, by norm_num, by simp⟩ g
    (fun x k m n => star (g x (k - (1, 0, 0)) n m)) fun x k m n => by rw [add_sub_cancel_right]

/-- C52: for `eps > 0`, the error of each term is bounded by `eps` times a Lipschitz constant of the derivative. -/
theorem C52_eps (eps kT L : ℝ) (heps : 0 ≤ eps) (occ delta : ℝ → ℝ) (h : ∀ x, HasDerivAt occ (-delta x) x)
    (hL : ∀ x y, |delta (x / kT) / kT - delta (y / kT) / kT| ≤ L * |x - y|) (hL0 : 0 ≤ L)
    (e : Mesh n1 n2 n3 → Fin nb → ℝ) (q : Fin 3 → ℝ) (j : Mesh n1 n2 n3) (hj : OnMesh q j) (k : Mesh n1 n2 n3)
    (m n : Fin nb) :
    |weights eps kT occ delta none e q k m n - quotient kT occ (e k n) (e (k + j) m)| ≤ L * eps := by
  unfold weights envelope
  simp only [mul_one]
  unfold dfde
  simp only [slice_q _ q j k hj]
  generalize e k n = a
  generalize e (k + j) m = b
  have hd := occ_hasDerivAt kT occ delta h
  unfold quotient
  by_cases hz : b = a
  · subst hz
    rw [dslope_same, (hd b).deriv, if_neg (by simpa using heps)]
    simpa using mul_nonneg hL0 heps
  · rw [dslope_of_ne _ hz]
    split
    · rw [slope_def_field, ← neg_sub (occ (b / kT)), ← neg_sub b, neg_div_neg_eq, sub_self, abs_zero]
      exact mul_nonneg hL0 heps
    · rename_i hle
      push Not at hle
      have key : ∀ a b : ℝ, a < b → |a - b| ≤ eps → ∀ c, (c = a ∨ c = b) →
          |delta (c / kT) / -kT - slope (fun x => occ (x / kT)) a b| ≤ L * eps := by
        intro a b hab hle c hc
        obtain ⟨x, hx, hs⟩ := exists_hasDerivAt_eq_slope (fun x => occ (x / kT)) _ hab
          (fun y _ => (hd y).continuousAt.continuousWithinAt) fun y _ => hd y
        rw [slope_def_field, ← hs, div_neg, div_neg, ← neg_sub', abs_neg]
        refine (hL c x).trans (mul_le_mul_of_nonneg_left ?_ hL0)
        rw [abs_le] at hle
        rw [abs_le]
        rcases hc with rfl | rfl <;> constructor <;> linarith [hx.1, hx.2]
      rcases lt_or_gt_of_ne hz with h' | h'
      · rw [slope_comm]
        exact key b a h' (by rwa [abs_sub_comm]) a (Or.inr rfl)
      · exact key a b h' hle a (Or.inl rfl)

example (e : Mesh 6 6 1 → Fin 2 → ℝ) :=
  C52_eps 1e-10 0.025 0 (by norm_num) (fun x => -x) (fun _ => 1) (fun x => (hasDerivAt_id x).neg) (fun x y => by simp) le_rfl e
    ![2 * Real.pi * (1 / 6 + 3), 0, 0] (1, 0, 0) ⟨![3, 0, 0], by norm_num, by norm_num, by simp⟩

/-! ### C79: free energy -/

omit [DecidableEq X] in
theorem weights_diagonal (eps kT : ℝ) (heps : 0 ≤ eps) (occ delta : ℝ → ℝ) (e : Mesh n1 n2 n3 → Fin nb → ℝ)
    (q : Fin 3 → ℝ) (hq : OnMesh q (0 : Mesh n1 n2 n3)) (k : Mesh n1 n2 n3) (n : Fin nb) :
    weights eps kT occ delta none e q k n n = - (delta (e k n / kT) / kT) := by
  unfold weights envelope dfde
  simp only [slice_q _ q 0 k hq, add_zero, sub_self, abs_zero, mul_one]
  rw [if_neg (by simpa using heps), div_neg]

/-- C79: for fixed number of electrons (with the shift of the chemical potential), the contribution of the electrons to
the force constants at `q = 0` is negative semidefinite, too. -/
theorem C79_negative [Fintype X] (eps kT : ℝ) (heps : 0 ≤ eps) (hkT : 0 < kT) (occ delta : ℝ → ℝ) (ho : Antitone occ)
    (hd : ∀ x, 0 ≤ delta x) (sym : Bool) (e : Mesh n1 n2 n3 → Fin nb → ℝ) (q : Fin 3 → ℝ)
    (hq : OnMesh q (0 : Mesh n1 n2 n3)) (g : Cpl n1 n2 n3 nb X) (hg : ∀ x k n, star (g x k n n) = g x k n n)
    (hdos : 0 < ∑ k, ∑ n, delta (e k n / kT) / kT) (v : X → ℂ) :
    ∃ r : ℝ, r ≤ 0 ∧ ∑ mu, ∑ nu, star (v mu) *
      (selfEnergy sym false (fun k m n => (weights eps kT occ delta none e q k m n : ℂ)) (fun _ _ => 0) g none mu nu +
        fermiShift kT delta e g mu nu) * v nu = r := by
  set d := fun k n => delta (e k n / kT) / kT with hdd
  have hd0 : ∀ k n, 0 ≤ d k n := fun k n => div_nonneg (hd _) hkT.le
  set D := ∑ k, ∑ n, d k n with hD
  set z := fun k m n => ∑ nu, g nu k m n * v nu with hz
  have hs : ∑ mu, ∑ nu, star (v mu) * fermiShift kT delta e g mu nu * v nu =
      ((2 / ((n1 * n2 * n3 : Nat) : ℝ) * (‖∑ k, ∑ n, (d k n : ℂ) * z k n n‖ ^ 2 / D) : ℝ) : ℂ) := by
    have h1 : ∑ nu, (∑ k, ∑ n, (d k n : ℂ) * g nu k n n) * v nu = ∑ k, ∑ n, (d k n : ℂ) * z k n n := by
      simp only [hz, Finset.sum_mul, Finset.mul_sum]
      rw [Finset.sum_comm]
      refine Finset.sum_congr rfl fun k _ => ?_
      rw [Finset.sum_comm]
      refine Finset.sum_congr rfl fun n _ => Finset.sum_congr rfl fun x _ => ?_
      ring
    have h2 : ∑ mu, star (v mu) * (∑ k, ∑ n, (d k n : ℂ) * g mu k n n) = star (∑ k, ∑ n, (d k n : ℂ) * z k n n) := by
      rw [← h1, star_sum]
      refine Finset.sum_congr rfl fun mu _ => ?_
      rw [star_mul']
      simp only [star_sum, star_mul', star_real, hg]
      ring
    have hD0 : (D : ℂ) ≠ 0 := Complex.ofReal_ne_zero.2 hdos.ne'
    have h3 : ∀ mu nu, star (v mu) * fermiShift kT delta e g mu nu * v nu =
        (2 / ((n1 * n2 * n3 : Nat) : ℂ) / D) * ((star (v mu) * (∑ k, ∑ n, (d k n : ℂ) * g mu k n n)) *
          ((∑ k, ∑ n, (d k n : ℂ) * g nu k n n) * v nu)) := by
      intro mu nu
      unfold fermiShift
      simp only
      rw [← hD]
      field_simp
      simp only [hdd]
      push_cast
      ring
    simp only [h3, ← Finset.mul_sum]
    rw [← Finset.sum_mul, h1, h2]
    have h4 : ∀ c : ℂ, star c * c = ((‖c‖ ^ 2 : ℝ) : ℂ) := by
      intro c
      push_cast
      exact Complex.conj_mul' c
    rw [h4]
    push_cast
    ring
  have hq' := quadratic (weights eps kT occ delta none e q) g sym v
  refine ⟨2 / ((n1 * n2 * n3 : Nat) : ℝ) * ((∑ k, ∑ m, ∑ n, weights eps kT occ delta none e q k m n * ‖z k m n‖ ^ 2) +
    ‖∑ k, ∑ n, (d k n : ℂ) * z k n n‖ ^ 2 / D), ?_, ?_⟩
  · apply mul_nonpos_of_nonneg_of_nonpos (by positivity)
    have h1 : ∑ k, ∑ m, ∑ n, weights eps kT occ delta none e q k m n * ‖z k m n‖ ^ 2 ≤
        - ∑ k, ∑ n, d k n * ‖z k n n‖ ^ 2 := by
      rw [← Finset.sum_neg_distrib]
      refine Finset.sum_le_sum fun k _ => ?_
      rw [← Finset.sum_neg_distrib]
      refine Finset.sum_le_sum fun m _ => ?_
      have hw : Window.Good none := fun w hw => absurd hw (by simp)
      rw [← Finset.add_sum_erase _ _ (Finset.mem_univ m), weights_diagonal eps kT heps occ delta e q hq]
      have : ∑ n ∈ Finset.univ.erase m, weights eps kT occ delta none e q k m n * ‖z k m n‖ ^ 2 ≤ 0 :=
        Finset.sum_nonpos fun n _ => mul_nonpos_of_nonpos_of_nonneg
          (weights_nonpos eps kT hkT occ delta ho hd none hw e q k m n) (sq_nonneg _)
      have h5 : -(delta (e k m / kT) / kT) * ‖z k m m‖ ^ 2 = - (d k m * ‖z k m m‖ ^ 2) := by
        rw [neg_mul]
      linarith
    have h2 : ‖∑ k, ∑ n, (d k n : ℂ) * z k n n‖ ^ 2 ≤ D * ∑ k, ∑ n, d k n * ‖z k n n‖ ^ 2 := by
      have a1 : ‖∑ k, ∑ n, (d k n : ℂ) * z k n n‖ ≤ ∑ k, ∑ n, d k n * ‖z k n n‖ := by
        refine (norm_sum_le _ _).trans (Finset.sum_le_sum fun k _ => (norm_sum_le _ _).trans
          (Finset.sum_le_sum fun n _ => ?_))
        rw [norm_mul, Complex.norm_real, Real.norm_of_nonneg (hd0 k n)]
      have a2 : (∑ k, ∑ n, d k n * ‖z k n n‖) ^ 2 ≤ D * ∑ k, ∑ n, d k n * ‖z k n n‖ ^ 2 := by
        rw [hD]
        simp only [← Fintype.sum_prod_type']
        refine Finset.sum_sq_le_sum_mul_sum_of_sq_eq_mul _ (fun i _ => hd0 _ _)
          (fun i _ => mul_nonneg (hd0 _ _) (sq_nonneg _)) fun i _ => ?_
        ring
      exact (pow_le_pow_left₀ (norm_nonneg _) a1 2).trans a2
    have h3 : ‖∑ k, ∑ n, (d k n : ℂ) * z k n n‖ ^ 2 / D ≤ ∑ k, ∑ n, d k n * ‖z k n n‖ ^ 2 := by
      rw [div_le_iff₀ hdos, mul_comm]
      exact h2
    linarith
  · have : ∀ mu nu, star (v mu) * (selfEnergy sym false (fun k m n => (weights eps kT occ delta none e q k m n : ℂ))
        (fun _ _ => 0) g none mu nu + fermiShift kT delta e g mu nu) * v nu =
        star (v mu) * selfEnergy sym false (fun k m n => (weights eps kT occ delta none e q k m n : ℂ))
        (fun _ _ => 0) g none mu nu * v nu + star (v mu) * fermiShift kT delta e g mu nu * v nu := by
      intro mu nu
      ring
    simp only [this, Finset.sum_add_distrib]
    rw [hq', hs]
    push_cast
    ring

/-- C79: displacements which shift all energies by the same amount do not change the free energy. -/
theorem C79_rigid (eps kT : ℝ) (heps : 0 ≤ eps) (occ delta : ℝ → ℝ) (sym : Bool) (e : Mesh n1 n2 n3 → Fin nb → ℝ)
    (q : Fin 3 → ℝ) (hq : OnMesh q (0 : Mesh n1 n2 n3)) (c : X → ℝ) (g : Cpl n1 n2 n3 nb X)
    (hg : ∀ x k m n, g x k m n = if m = n then (c x : ℂ) else 0)
    (hdos : 0 < ∑ k, ∑ n, delta (e k n / kT) / kT) (mu nu : X) :
    selfEnergy sym false (fun k m n => (weights eps kT occ delta none e q k m n : ℂ)) (fun _ _ => 0) g none mu nu +
      fermiShift kT delta e g mu nu = 0 := by
  have hD0 : ((∑ k, ∑ n, delta (e k n / kT) / kT : ℝ) : ℂ) ≠ 0 := Complex.ofReal_ne_zero.2 hdos.ne'
  have h1 : ∀ x, (∑ k, ∑ n, ((delta (e k n / kT) / kT : ℝ) : ℂ) * g x k n n) /
      ((∑ k, ∑ n, delta (e k n / kT) / kT : ℝ) : ℂ) = c x := by
    intro x
    rw [div_eq_iff hD0]
    simp only [hg, if_true, ← Finset.sum_mul]
    push_cast
    ring
  unfold fermiShift
  simp only
  rw [h1, h1]
  unfold selfEnergy contact piK
  simp only [Complex.ofReal_zero, zero_div, mul_zero, zero_mul, Finset.sum_const_zero, add_zero, Bool.false_eq_true,
    false_and, if_false]
  have h2 : ∑ k, ∑ m, ∑ n, star (g mu k m n) * g nu k m n * (weights eps kT occ delta none e q k m n : ℂ) =
      - ((c mu : ℂ) * c nu * ((∑ k, ∑ n, delta (e k n / kT) / kT : ℝ) : ℂ)) := by
    push_cast
    rw [Finset.mul_sum, ← Finset.sum_neg_distrib]
    refine Finset.sum_congr rfl fun k _ => ?_
    rw [Finset.mul_sum, ← Finset.sum_neg_distrib]
    refine Finset.sum_congr rfl fun m _ => ?_
    rw [Finset.sum_eq_single m]
    · rw [hg, hg, if_pos rfl, if_pos rfl, star_real, weights_diagonal eps kT heps occ delta e q hq]
      push_cast
      ring
    · intro n _ hn
      rw [hg, hg, if_neg hn.symm]
      simp
    · simp
  rw [h2]
  ring

end

/-- Gaussian smearing: two bands on a mesh, one mode. -/
example (e : Mesh 6 6 1 → Fin 2 → ℝ) (q : Fin 3 → ℝ) (g : Cpl 6 6 1 2 (Fin 9)) (v : Fin 9 → ℂ) :
    ∃ r : ℝ, r ≤ 0 ∧ ∑ mu, ∑ nu, star (v mu) *
      selfEnergy true false (fun k m n => (weights 1e-10 0.025 gauss gaussDelta none e q k m n : ℂ)) (fun _ _ => 0) g none
        mu nu * v nu = r :=
  C52_negative 1e-10 0.025 (by norm_num) gauss gaussDelta C35_gauss.anti.antitone (fun x => (gaussDelta_pos x).le) none
    (fun w hw => absurd hw (by simp)) true e q g v

example (e : Mesh 6 6 1 → Fin 2 → ℝ) : 0 < ∑ k, ∑ n, gaussDelta (e k n / 0.025) / 0.025 :=
  Finset.sum_pos (fun k _ => Finset.sum_pos (fun n _ => div_pos (gaussDelta_pos _) (by norm_num)) ⟨0, Finset.mem_univ 0⟩)
    ⟨0, Finset.mem_univ 0⟩

example : OnMesh (fun _ => 0) (0 : Mesh 6 6 1) := ⟨fun _ => 0, by simp, by simp, by simp⟩

example : ∀ x, HasDerivAt gauss (-gaussDelta x) x := fun x => (C36_gauss x).1

end Verif.Diag
