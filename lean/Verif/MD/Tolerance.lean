import Verif.MD.Optimize
import Verif.Occ.Fermi

/-!
# Tolerance of the number of electrons and history of the chemical potential, `elphmod/md.py` 194-235 (C169)

`find_Fermi_level` starts from the chemical potential of the previous structure and stops as soon as the number of electrons is correct within a tolerance.
Energies and forces thus depend on the history. By how much?
-/

namespace Verif.MD.Tolerance

open Matrix
open Verif.Diag
open Verif.Occ (findFermiLevel)

variable {n1 n2 n3 nb nat nq : Nat}

/-! ### Model -/

/-- `elphmod/md.py` 194-235 (`diagonalize`, `find_Fermi_level` except for `two_fermi_dirac`), starting from the chemical potential `mu0`, with at most
`fuel` iterations. `φ` is the order of the elements of the flattened array of energies, `lo` and `hi` are `e.min()` and `e.max()`, only needed without
`mu0`. -/
noncomputable def diagonalizeFrom (eigh : Matrix (Fin nb) (Fin nb) ℂ → (Fin nb → ℝ) × Matrix (Fin nb) (Fin nb) ℂ) (occ : ℝ → ℝ)
    (delta0 lo hi eps tol : ℝ) (φ : Fin (n1 * n2 * n3 * nb) ≃ Mesh n1 n2 n3 × Fin nb) (mu0 : Option ℝ) (fuel : Nat) (s : Driver n1 n2 n3 nb nat nq) :
    Option (Driver n1 n2 n3 nb nat nq) :=
  let s := { s with u := center s.u }
  let e := fun k => (eigh (s.H k)).1
  (findFermiLevel (n1 * n2 * n3) nb occ delta0 (fun i => e (φ i).1 (φ i).2) lo hi s.kT eps s.n tol mu0 fuel).map fun mu =>
    { s with U := fun k => (eigh (s.H k)).2, mu := mu, e := fun k n => e k n - mu }

/-! ### Specification -/

/-- Specification: number of electrons with spin. -/
noncomputable def number (occ : ℝ → ℝ) (kT : ℝ) (e : Mesh n1 n2 n3 → Fin nb → ℝ) (mu : ℝ) : ℝ :=
  2 / (n1 * n2 * n3 : Nat) * ∑ k, ∑ n, occ ((e k n - mu) / kT)

/-- Specification: the state of the driver for a given chemical potential, e.g., the exact one. -/
noncomputable def stateAt (eigh : Matrix (Fin nb) (Fin nb) ℂ → (Fin nb → ℝ) × Matrix (Fin nb) (Fin nb) ℂ) (s : Driver n1 n2 n3 nb nat nq) (mu : ℝ) :
    Driver n1 n2 n3 nb nat nq := s.diagonalize eigh fun _ => mu

/-- Specification: energies of the perturbed system. -/
noncomputable def energies (eigh : Matrix (Fin nb) (Fin nb) ℂ → (Fin nb → ℝ) × Matrix (Fin nb) (Fin nb) ℂ) (s : Driver n1 n2 n3 nb nat nq)
    (k : Mesh n1 n2 n3) : Fin nb → ℝ := (eigh (({ s with u := center s.u } : Driver n1 n2 n3 nb nat nq).H k)).1

/-- Specification: bound for the coupling of all states to a displacement. -/
def Coupled (eigh : Matrix (Fin nb) (Fin nb) ℂ → (Fin nb → ℝ) × Matrix (Fin nb) (Fin nb) ℂ) (s : Driver n1 n2 n3 nb nat nq) (x : X nat) (M : ℝ) : Prop :=
  ∀ mu k n, |((((stateAt eigh s mu).U k).conjTranspose * s.d0 0 x k * (stateAt eigh s mu).U k) n n).re| ≤ M

/-! ### Results -/

section results
variable {eigh : Matrix (Fin nb) (Fin nb) ℂ → (Fin nb → ℝ) × Matrix (Fin nb) (Fin nb) ℂ} {occ delta entropy : ℝ → ℝ}

theorem diagonalizeFrom_eq {delta0 lo hi eps tol : ℝ} {φ : Fin (n1 * n2 * n3 * nb) ≃ Mesh n1 n2 n3 × Fin nb} {mu0 : Option ℝ} {fuel : Nat}
    {s a : Driver n1 n2 n3 nb nat nq} (h1 : 0 < n1 * n2 * n3) (h2 : 0 < nb)
    (h : diagonalizeFrom eigh occ delta0 lo hi eps tol φ mu0 fuel s = some a) :
    a = stateAt eigh s a.mu ∧ |number occ s.kT (energies eigh s) a.mu - s.n| < tol := by
  unfold diagonalizeFrom at h
  simp only [Option.map_eq_some_iff] at h
  obtain ⟨mu, hmu, rfl⟩ := h
  refine ⟨rfl, ?_⟩
  have := Verif.Occ.C38_returns (n1 * n2 * n3) nb h1 h2 occ delta0 _ lo hi s.kT eps 0 s.n tol mu0 fuel mu (Or.inl hmu)
  have e : number occ s.kT (energies eigh s) mu = Verif.Occ.density (n1 * n2 * n3) nb occ
      (fun i => (eigh (({ s with u := center s.u } : Driver n1 n2 n3 nb nat nq).H (φ i).1)).1 (φ i).2) s.kT mu := by
    unfold number Verif.Occ.density
    rw [← Fintype.sum_prod_type' (f := fun k n => occ ((energies eigh s k n - mu) / s.kT)), ← Equiv.sum_comp φ]
    unfold energies
    ring
  rw [← e] at this
  exact this

theorem number_mono (ho : Antitone occ) {kT : ℝ} (hkT : 0 < kT) (e : Mesh n1 n2 n3 → Fin nb → ℝ) : Monotone (number occ kT e) := by
  intro a b hab
  unfold number
  refine mul_le_mul_of_nonneg_left (Finset.sum_le_sum fun k _ => Finset.sum_le_sum fun n _ => ho ?_) (by positivity)
  exact div_le_div_of_nonneg_right (by linarith) hkT.le

/-- **C169**: the derivative of the calculated free energy with respect to the chemical potential is the number of missing electrons. -/
theorem C169_derivative (h1 : ∀ x, HasDerivAt occ (-delta x) x) (h3 : ∀ x, HasDerivAt entropy (-x * delta x) x) (s : Driver n1 n2 n3 nb nat nq)
    (hkT : s.kT ≠ 0) (mu : ℝ) :
    HasDerivAt (fun mu => (stateAt eigh s mu).freeEnergy occ entropy) (s.n - number occ s.kT (energies eigh s) mu) mu := by
  set c := 0.5 * (∑ x, ∑ y, center s.u x * (s.C0 0 x y).re * center s.u y) + ∑ x, s.F0 x * center s.u x with hc
  have e : (fun mu => (stateAt eigh s mu).freeEnergy occ entropy) = fun mu =>
      2 / ((n1 * n2 * n3 : Nat) : ℝ) * (∑ k, ∑ n, omega1 s.kT occ entropy (energies eigh s k n - mu)) + mu * s.n + c := by
    funext mu
    have hom : ∀ x, omega1 s.kT occ entropy x = occ (x / s.kT) * x - s.kT * entropy (x / s.kT) := by
      intro x
      unfold omega1
      field_simp
    simp only [hom, Finset.sum_sub_distrib, ← Finset.mul_sum]
    show 2 / ((n1 * n2 * n3 : Nat) : ℝ) * (∑ k, ∑ n, occ ((energies eigh s k n - mu) / s.kT) * (energies eigh s k n - mu)) + mu * s.n -
      2 / ((n1 * n2 * n3 : Nat) : ℝ) * s.kT * (∑ k, ∑ n, entropy ((energies eigh s k n - mu) / s.kT)) +
      0.5 * (∑ x, ∑ y, center s.u x * (s.C0 0 x y).re * center s.u y) + ∑ x, s.F0 x * center s.u x = _
    rw [hc]
    ring
  rw [e]
  have hd : HasDerivAt (fun mu => ∑ k, ∑ n, omega1 s.kT occ entropy (energies eigh s k n - mu))
      (∑ k, ∑ n, occ ((energies eigh s k n - mu) / s.kT) * -1) mu := by
    refine HasDerivAt.fun_sum fun k _ => HasDerivAt.fun_sum fun n _ => ?_
    have := omega1_deriv s.kT hkT occ delta entropy h1 h3 (energies eigh s k n - mu)
    exact this.comp mu ((hasDerivAt_id mu).const_sub _)
  have h := (((hd.const_mul (2 / ((n1 * n2 * n3 : Nat) : ℝ))).add ((hasDerivAt_id mu).mul_const s.n)).add_const c)
  refine h.congr_deriv ?_
  unfold number
  simp only [mul_neg, mul_one, Finset.sum_neg_distrib]
  ring

theorem mean_value (f N : ℝ → ℝ) (n t : ℝ) (hN : Monotone N) (hf : ∀ x, HasDerivAt f (n - N x) x) (a b : ℝ) (ha : |N a - n| ≤ t) (hb : |N b - n| ≤ t) :
    |f a - f b| ≤ t * |a - b| := by
  have key : ∀ a b, a < b → |N a - n| ≤ t → |N b - n| ≤ t → |f b - f a| ≤ t * (b - a) := by
    intro a b hab ha hb
    obtain ⟨c, hc, hs⟩ := exists_hasDerivAt_eq_slope f (fun x => n - N x) hab (fun x _ => (hf x).continuousAt.continuousWithinAt) fun x _ => hf x
    have h1 := hN hc.1.le
    have h2 := hN hc.2.le
    rw [abs_le] at ha hb
    have hba : 0 < b - a := by linarith
    rw [eq_div_iff hba.ne'] at hs
    rw [← hs, abs_mul, abs_of_pos hba]
    refine mul_le_mul_of_nonneg_right ?_ hba.le
    rw [abs_le]
    constructor <;> linarith
  rcases lt_trichotomy a b with h | h | h
  · rw [abs_sub_comm, abs_sub_comm a b, abs_of_pos (show 0 < b - a by linarith)]
    exact key a b h ha hb
  · subst h
    simp
  · rw [abs_of_pos (show 0 < a - b by linarith)]
    exact key b a h hb ha

theorem maximum (f N : ℝ → ℝ) (n : ℝ) (hN : Monotone N) (hf : ∀ x, HasDerivAt f (n - N x) x) (a m : ℝ) (hm : N m = n) : f a ≤ f m := by
  rcases lt_trichotomy a m with h | h | h
  · obtain ⟨c, hc, hs⟩ := exists_hasDerivAt_eq_slope f (fun x => n - N x) h (fun x _ => (hf x).continuousAt.continuousWithinAt) fun x _ => hf x
    have h1 := hN hc.2.le
    rw [eq_div_iff (by linarith)] at hs
    nlinarith [mul_nonneg (show 0 ≤ n - N c by linarith) (show 0 ≤ m - a by linarith)]
  · rw [h]
  · obtain ⟨c, hc, hs⟩ := exists_hasDerivAt_eq_slope f (fun x => n - N x) h (fun x _ => (hf x).continuousAt.continuousWithinAt) fun x _ => hf x
    have h1 := hN hc.1.le
    rw [eq_div_iff (by linarith)] at hs
    nlinarith [mul_nonneg (show 0 ≤ N c - n by linarith) (show 0 ≤ a - m by linarith)]

theorem forces [NeZero n1] [NeZero n2] [NeZero n3] (ho : Antitone occ) (s : Driver n1 n2 n3 nb nat nq) (hkT : 0 < s.kT) (x : X nat) (M : ℝ) (hM : Coupled eigh s x M) (a b : ℝ) :
    |(stateAt eigh s a).jacobian occ x - (stateAt eigh s b).jacobian occ x| ≤
      M * |number occ s.kT (energies eigh s) a - number occ s.kT (energies eigh s) b| := by
  set r : Mesh n1 n2 n3 → Fin nb → ℝ := fun k n =>
    ((((stateAt eigh s 0).U k).conjTranspose * s.d0 0 x k * (stateAt eigh s 0).U k) n n).re with hr
  have hrM : ∀ k n, |r k n| ≤ M := fun k n => hM 0 k n
  have hj : ∀ mu, (stateAt eigh s mu).jacobian occ x = 2 / ((n1 * n2 * n3 : Nat) : ℝ) * (∑ k, ∑ n, occ ((energies eigh s k n - mu) / s.kT) * r k n) +
      (∑ y, (s.C0 0 x y).re * center s.u y) + s.F0 x := by
    intro mu
    have hb := C81_basis s.kT occ (fun k n => energies eigh s k n - mu) (stateAt eigh s 0).U (s.d0 0 x)
    have h0 : (stateAt eigh s mu).jacobian occ x = (firstOrderU s.kT occ (fun k n => energies eigh s k n - mu) (stateAt eigh s 0).U (s.d0 0 x)).re +
      (∑ y, (s.C0 0 x y).re * center s.u y) + s.F0 x := rfl
    rw [h0]
    refine congrArg₂ (· + ·) (congrArg₂ (· + ·) ?_ rfl) rfl
    refine (congrArg Complex.re hb).trans ?_
    unfold firstOrder
    rw [show (2 : ℂ) / ((n1 * n2 * n3 : Nat) : ℂ) = ((2 / ((n1 * n2 * n3 : Nat) : ℝ) : ℝ) : ℂ) by push_cast; rfl, Complex.re_ofReal_mul]
    congr 1
    simp only [Complex.re_sum, Complex.re_ofReal_mul]
    refine Finset.sum_congr rfl fun k _ => Finset.sum_congr rfl fun n _ => ?_
    congr 1
    rw [hr]
    simp only [← Complex.re_sum]
    refine congrArg Complex.re ?_
    simp only [Matrix.mul_apply, Matrix.conjTranspose_apply, Finset.sum_mul]
    rw [Finset.sum_comm]
  have key : ∀ a b, a ≤ b → |(stateAt eigh s a).jacobian occ x - (stateAt eigh s b).jacobian occ x| ≤
      M * |number occ s.kT (energies eigh s) a - number occ s.kT (energies eigh s) b| := by
    intro a b hab
    have hd : ∀ k n, 0 ≤ occ ((energies eigh s k n - b) / s.kT) - occ ((energies eigh s k n - a) / s.kT) := fun k n =>
      sub_nonneg.2 (ho (div_le_div_of_nonneg_right (by linarith) hkT.le))
    have hp : (0 : ℝ) ≤ 2 / ((n1 * n2 * n3 : Nat) : ℝ) := by positivity
    have e1 : (stateAt eigh s b).jacobian occ x - (stateAt eigh s a).jacobian occ x = 2 / ((n1 * n2 * n3 : Nat) : ℝ) *
        ∑ k, ∑ n, (occ ((energies eigh s k n - b) / s.kT) - occ ((energies eigh s k n - a) / s.kT)) * r k n := by
      rw [hj, hj]
      simp only [sub_mul, Finset.sum_sub_distrib]
      ring
    have e2 : number occ s.kT (energies eigh s) b - number occ s.kT (energies eigh s) a = 2 / ((n1 * n2 * n3 : Nat) : ℝ) *
        ∑ k, ∑ n, (occ ((energies eigh s k n - b) / s.kT) - occ ((energies eigh s k n - a) / s.kT)) := by
      unfold number
      simp only [Finset.sum_sub_distrib]
      ring
    rw [abs_sub_comm, e1, abs_sub_comm (number _ _ _ a), abs_of_nonneg (a := number occ s.kT (energies eigh s) b - _)
      (sub_nonneg.2 (number_mono ho hkT _ hab)), e2, abs_mul, abs_of_nonneg hp]
    rw [mul_left_comm]
    refine mul_le_mul_of_nonneg_left ?_ hp
    simp only [Finset.mul_sum]
    refine (Finset.abs_sum_le_sum_abs _ _).trans (Finset.sum_le_sum fun k _ => (Finset.abs_sum_le_sum_abs _ _).trans (Finset.sum_le_sum fun n _ => ?_))
    rw [abs_mul, abs_of_nonneg (hd k n), mul_comm]
    exact mul_le_mul_of_nonneg_right (hrM k n) (hd k n)
  rcases le_total a b with h | h
  · exact key a b h
  · rw [abs_sub_comm, abs_sub_comm (number _ _ _ a)]
    exact key b a h

/-- **C169**: free energies for the same displacements but different initial guesses (i.e., history) differ by no more than the tolerance times the
difference of the chemical potentials. Forces differ by no more than two times the tolerance times the coupling. -/
theorem C169_history [NeZero n1] [NeZero n2] [NeZero n3] (ho : Antitone occ) (h1 : ∀ x, HasDerivAt occ (-delta x) x) (h3 : ∀ x, HasDerivAt entropy (-x * delta x) x)
    (s : Driver n1 n2 n3 nb nat nq) (hkT : 0 < s.kT) (hb : 0 < nb) {delta0 lo hi eps tol : ℝ}
    {φ : Fin (n1 * n2 * n3 * nb) ≃ Mesh n1 n2 n3 × Fin nb} {mu0 mu0' : Option ℝ} {fuel fuel' : Nat} {a a' : Driver n1 n2 n3 nb nat nq}
    (ha : diagonalizeFrom eigh occ delta0 lo hi eps tol φ mu0 fuel s = some a)
    (ha' : diagonalizeFrom eigh occ delta0 lo hi eps tol φ mu0' fuel' s = some a') :
    |a.freeEnergy occ entropy - a'.freeEnergy occ entropy| ≤ tol * |a.mu - a'.mu| ∧
    ∀ x M, Coupled eigh s x M → |a.jacobian occ x - a'.jacobian occ x| ≤ 2 * tol * M := by
  have hn : 0 < n1 * n2 * n3 := Nat.pos_of_ne_zero (mul_ne_zero (mul_ne_zero (NeZero.ne n1) (NeZero.ne n2)) (NeZero.ne n3))
  obtain ⟨h4, h5⟩ := diagonalizeFrom_eq hn hb ha
  obtain ⟨h6, h7⟩ := diagonalizeFrom_eq hn hb ha'
  constructor
  · have := mean_value (fun mu => (stateAt eigh s mu).freeEnergy occ entropy) (number occ s.kT (energies eigh s)) s.n tol (number_mono ho hkT _)
      (C169_derivative h1 h3 s hkT.ne') a.mu a'.mu h5.le h7.le
    simp only [← h4, ← h6] at this
    exact this
  · intro x M hM
    have := forces ho s hkT x M hM a.mu a'.mu
    rw [← h4, ← h6] at this
    have hM0 : 0 ≤ M := (abs_nonneg _).trans (hM 0 (0, 0, 0) ⟨0, hb⟩)
    refine this.trans ?_
    have h8 := abs_sub_le (number occ s.kT (energies eigh s) a.mu) s.n (number occ s.kT (energies eigh s) a'.mu)
    rw [abs_sub_comm s.n] at h8
    nlinarith

/-- **C169**: compared with the exact chemical potential, the free energy is too small by no more than the tolerance times the deviation of the chemical
potential, and forces deviate by no more than the tolerance times the coupling. -/
theorem C169_exact [NeZero n1] [NeZero n2] [NeZero n3] (ho : Antitone occ) (h1 : ∀ x, HasDerivAt occ (-delta x) x) (h3 : ∀ x, HasDerivAt entropy (-x * delta x) x)
    (s : Driver n1 n2 n3 nb nat nq) (hkT : 0 < s.kT) (hb : 0 < nb) {delta0 lo hi eps tol : ℝ}
    {φ : Fin (n1 * n2 * n3 * nb) ≃ Mesh n1 n2 n3 × Fin nb} {mu0 : Option ℝ} {fuel : Nat} {a : Driver n1 n2 n3 nb nat nq}
    (ha : diagonalizeFrom eigh occ delta0 lo hi eps tol φ mu0 fuel s = some a) (mu : ℝ) (hmu : number occ s.kT (energies eigh s) mu = s.n) :
    a.freeEnergy occ entropy ≤ (stateAt eigh s mu).freeEnergy occ entropy ∧
    (stateAt eigh s mu).freeEnergy occ entropy ≤ a.freeEnergy occ entropy + tol * |mu - a.mu| ∧
    ∀ x M, Coupled eigh s x M → |a.jacobian occ x - (stateAt eigh s mu).jacobian occ x| ≤ tol * M := by
  have hn : 0 < n1 * n2 * n3 := Nat.pos_of_ne_zero (mul_ne_zero (mul_ne_zero (NeZero.ne n1) (NeZero.ne n2)) (NeZero.ne n3))
  obtain ⟨h4, h5⟩ := diagonalizeFrom_eq hn hb ha
  have htol : 0 < tol := (abs_nonneg _).trans_lt h5
  have hd := C169_derivative (eigh := eigh) h1 h3 s hkT.ne'
  have hN := number_mono ho hkT (energies eigh s)
  refine ⟨?_, ?_, ?_⟩
  · have := maximum (fun mu => (stateAt eigh s mu).freeEnergy occ entropy) _ s.n hN hd a.mu mu hmu
    simp only [← h4] at this
    exact this
  · have := mean_value (fun mu => (stateAt eigh s mu).freeEnergy occ entropy) _ s.n tol hN hd mu a.mu (by rw [hmu]; simpa using htol.le) h5.le
    simp only [← h4] at this
    linarith [le_abs_self ((stateAt eigh s mu).freeEnergy occ entropy - a.freeEnergy occ entropy)]
  · intro x M hM
    have := forces ho s hkT x M hM a.mu mu
    rw [← h4, hmu] at this
    have hM0 : 0 ≤ M := (abs_nonneg _).trans (hM 0 (0, 0, 0) ⟨0, hb⟩)
    nlinarith

/-- **C169**: a chemical potential with the correct number of electrons is kept, e.g., if the same displacements are set again. -/
theorem C169_kept {delta0 lo hi eps tol : ℝ} {φ : Fin (n1 * n2 * n3 * nb) ≃ Mesh n1 n2 n3 × Fin nb} {s : Driver n1 n2 n3 nb nat nq}
    (h1 : 0 < n1 * n2 * n3) (h2 : 0 < nb) (mu : ℝ) (hmu : |number occ s.kT (energies eigh s) mu - s.n| < tol) (fuel : Nat) :
    diagonalizeFrom eigh occ delta0 lo hi eps tol φ (some mu) (fuel + 1) s = some (stateAt eigh s mu) := by
  have e : number occ s.kT (energies eigh s) mu = 2 / (n1 * n2 * n3 : Nat) * Verif.Occ.electrons occ
      (fun i => (eigh (({ s with u := center s.u } : Driver n1 n2 n3 nb nat nq).H (φ i).1)).1 (φ i).2) s.kT mu := by
    unfold number Verif.Occ.electrons
    rw [← Fintype.sum_prod_type' (f := fun k n => occ ((energies eigh s k n - mu) / s.kT)), ← Equiv.sum_comp φ]
    unfold energies
    rfl
  have hs : (0.5 : ℝ) * ((n1 * n2 * n3 * nb : Nat) : ℝ) / (nb : ℝ) = 0.5 * ((n1 * n2 * n3 : Nat) : ℝ) := by
    have : (nb : ℝ) ≠ 0 := by positivity
    rw [Nat.cast_mul (n1 * n2 * n3) nb]
    field_simp
  unfold diagonalizeFrom findFermiLevel
  simp only [Option.map_eq_some_iff, hs, Option.getD_some]
  refine ⟨mu, ?_, rfl⟩
  rw [Verif.Occ.fermiLoop, if_pos]
  have hN : (0 : ℝ) < ((n1 * n2 * n3 : Nat) : ℝ) := by exact_mod_cast h1
  rw [e] at hmu
  set z := Verif.Occ.electrons occ (fun i => (eigh (({ s with u := center s.u } : Driver n1 n2 n3 nb nat nq).H (φ i).1)).1 (φ i).2) s.kT mu
  have : z - s.n * (0.5 * ((n1 * n2 * n3 : Nat) : ℝ)) = (2 / ((n1 * n2 * n3 : Nat) : ℝ) * z - s.n) * (0.5 * ((n1 * n2 * n3 : Nat) : ℝ)) := by
    field_simp
    ring
  show |z - s.n * (0.5 * ((n1 * n2 * n3 : Nat) : ℝ))| < _
  rw [this, abs_mul, abs_of_pos (a := 0.5 * ((n1 * n2 * n3 : Nat) : ℝ)) (by positivity)]
  exact mul_lt_mul_of_pos_right hmu (by positivity)

theorem exact_exists (φ : Fin (n1 * n2 * n3 * nb) ≃ Mesh n1 n2 n3 × Fin nb) (s : Driver n1 n2 n3 nb nat nq)
    (h1 : 0 < n1 * n2 * n3) (hkT : 0 < s.kT) (h0 : 0 < s.n) (h2 : s.n < 2 * nb) :
    ∃ mu, number Verif.Occ.gauss s.kT (energies eigh s) mu = s.n := by
  have hN : (0 : ℝ) < ((n1 * n2 * n3 : Nat) : ℝ) := by exact_mod_cast h1
  have hc : Continuous Verif.Occ.gauss := continuous_iff_continuousAt.2 fun x => (Verif.Occ.C36_gauss x).1.continuousAt
  obtain ⟨mu, hmu⟩ := Verif.Occ.exists_solution Verif.Occ.gauss hc Verif.Occ.C35_gauss.top Verif.Occ.C35_gauss.bot
    (fun i => energies eigh s (φ i).1 (φ i).2) s.kT (s.n * ((n1 * n2 * n3 : Nat) : ℝ) / 2) hkT (by positivity) (by
      rw [Nat.cast_mul (n1 * n2 * n3) nb]
      nlinarith)
  refine ⟨mu, ?_⟩
  unfold number
  rw [← Fintype.sum_prod_type' (f := fun k n => Verif.Occ.gauss ((energies eigh s k n - mu) / s.kT)), ← Equiv.sum_comp φ]
  unfold Verif.Occ.electrons at hmu
  rw [hmu]
  field_simp

/-- **C169**: Gaussian smearing: the search ends for all initial guesses, the exact chemical potential exists, and all results are close to it. -/
theorem C169_gauss [NeZero n1] [NeZero n2] [NeZero n3] (φ : Fin (n1 * n2 * n3 * nb) ≃ Mesh n1 n2 n3 × Fin nb) (s : Driver n1 n2 n3 nb nat nq)
    (hb : 0 < nb) (hkT : 0 < s.kT) (h0 : 0 < s.n) (h2 : s.n < 2 * nb) (lo hi eps tol : ℝ) (heps : 0 ≤ eps) (htol : 0 < tol)
    (hsmall : nb * (2 * Verif.Occ.gaussDelta 0 * (eps / s.kT)) ≤ tol / 8) :
    ∃ mu, number Verif.Occ.gauss s.kT (energies eigh s) mu = s.n ∧ ∀ mu0, ∃ fuel a,
      diagonalizeFrom eigh Verif.Occ.gauss (Verif.Occ.gaussDelta 0) lo hi eps tol φ mu0 fuel s = some a ∧
      a.freeEnergy Verif.Occ.gauss Verif.Occ.gaussEntropy ≤ (stateAt eigh s mu).freeEnergy Verif.Occ.gauss Verif.Occ.gaussEntropy ∧
      (stateAt eigh s mu).freeEnergy Verif.Occ.gauss Verif.Occ.gaussEntropy ≤
        a.freeEnergy Verif.Occ.gauss Verif.Occ.gaussEntropy + tol * |mu - a.mu| ∧
      ∀ x M, Coupled eigh s x M → |a.jacobian Verif.Occ.gauss x - (stateAt eigh s mu).jacobian Verif.Occ.gauss x| ≤ tol * M := by
  have hn : 0 < n1 * n2 * n3 := Nat.pos_of_ne_zero (mul_ne_zero (mul_ne_zero (NeZero.ne n1) (NeZero.ne n2)) (NeZero.ne n3))
  obtain ⟨mu, hmu⟩ := exact_exists (eigh := eigh) φ s hn hkT h0 h2
  refine ⟨mu, hmu, fun mu0 => ?_⟩
  obtain ⟨fuel, m, hm, -⟩ := Verif.Occ.C38_terminates_gauss (n1 * n2 * n3) nb hn hb (fun i => energies eigh s (φ i).1 (φ i).2) lo hi s.kT eps s.n tol mu0
    hkT heps htol h0 h2 hsmall
  have ha : diagonalizeFrom eigh Verif.Occ.gauss (Verif.Occ.gaussDelta 0) lo hi eps tol φ mu0 fuel s = some (stateAt eigh s m) := by
    unfold diagonalizeFrom
    simp only [Option.map_eq_some_iff]
    exact ⟨m, hm, rfl⟩
  exact ⟨fuel, _, ha, C169_exact Verif.Occ.C35_gauss.anti.antitone (fun x => (Verif.Occ.C36_gauss x).1) Verif.Occ.C37_gauss s hkT hb ha mu hmu⟩

/-- **C169**: however small the tolerance, for all systems there are two histories that lead to different free energies for the same displacements. -/
theorem C169_depends [NeZero n1] [NeZero n2] [NeZero n3] (φ : Fin (n1 * n2 * n3 * nb) ≃ Mesh n1 n2 n3 × Fin nb) (s : Driver n1 n2 n3 nb nat nq)
    (hb : 0 < nb) (hkT : 0 < s.kT) (h0 : 0 < s.n) (h2 : s.n < 2 * nb) (delta0 lo hi eps tol : ℝ) (htol : 0 < tol) :
    ∃ mu0 mu0' a a', diagonalizeFrom eigh Verif.Occ.gauss delta0 lo hi eps tol φ (some mu0) 1 s = some a ∧
      diagonalizeFrom eigh Verif.Occ.gauss delta0 lo hi eps tol φ (some mu0') 1 s = some a' ∧
      a.freeEnergy Verif.Occ.gauss Verif.Occ.gaussEntropy < a'.freeEnergy Verif.Occ.gauss Verif.Occ.gaussEntropy := by
  have hn : 0 < n1 * n2 * n3 := Nat.pos_of_ne_zero (mul_ne_zero (mul_ne_zero (NeZero.ne n1) (NeZero.ne n2)) (NeZero.ne n3))
  have hN : (0 : ℝ) < ((n1 * n2 * n3 : Nat) : ℝ) := by exact_mod_cast hn
  obtain ⟨mu, hmu⟩ := exact_exists (eigh := eigh) φ s hn hkT h0 h2
  have hc : Continuous Verif.Occ.gauss := continuous_iff_continuousAt.2 fun x => (Verif.Occ.C36_gauss x).1.continuousAt
  have hcN : Continuous (number Verif.Occ.gauss s.kT (energies eigh s)) := by
    unfold number
    fun_prop
  obtain ⟨d, hd, hball⟩ := Metric.continuous_iff.1 hcN mu tol htol
  have hclose : |number Verif.Occ.gauss s.kT (energies eigh s) (mu + d / 2) - s.n| < tol := by
    have := hball (mu + d / 2) (by rw [Real.dist_eq, add_sub_cancel_left, abs_of_pos (by linarith)]; linarith)
    rwa [Real.dist_eq, hmu] at this
  refine ⟨mu + d / 2, mu, _, _, C169_kept hn hb _ hclose 0, C169_kept hn hb _ (by rw [hmu]; simpa using htol) 0, ?_⟩
  obtain ⟨c, hc, hs⟩ := exists_hasDerivAt_eq_slope (fun mu => (stateAt eigh s mu).freeEnergy Verif.Occ.gauss Verif.Occ.gaussEntropy)
    (fun mu => s.n - number Verif.Occ.gauss s.kT (energies eigh s) mu) (show mu < mu + d / 2 by linarith)
    (fun x _ => (C169_derivative (fun x => (Verif.Occ.C36_gauss x).1) Verif.Occ.C37_gauss s hkT.ne' x).continuousAt.continuousWithinAt)
    fun x _ => C169_derivative (fun x => (Verif.Occ.C36_gauss x).1) Verif.Occ.C37_gauss s hkT.ne' x
  have hlt : s.n < number Verif.Occ.gauss s.kT (energies eigh s) c := by
    rw [← hmu]
    unfold number
    refine mul_lt_mul_of_pos_left ?_ (by positivity)
    refine Finset.sum_lt_sum_of_nonempty ⟨(0, 0, 0), Finset.mem_univ _⟩ fun k _ => Finset.sum_lt_sum_of_nonempty ⟨⟨0, hb⟩, Finset.mem_univ _⟩ fun n _ => ?_
    exact Verif.Occ.C35_gauss.anti (div_lt_div_of_pos_right (by linarith [hc.1]) hkT)
  rw [eq_div_iff (by linarith)] at hs
  nlinarith

end results

/-! ### Examples -/

/-- The bands of the dimer: one orbital at one point. -/
def order1 : Fin (1 * 1 * 1 * 1) ≃ Mesh 1 1 1 × Fin 1 where
  toFun := fun _ => ((0, 0, 0), 0)
  invFun := fun _ => 0
  left_inv := fun i => (Fin.fin_one_eq_zero i).symm
  right_inv := fun _ => Subsingleton.elim _ _

/-- Diagonalization of 1 x 1 matrices. -/
noncomputable def eigh1 (A : Matrix (Fin 1) (Fin 1) ℂ) : (Fin 1 → ℝ) × Matrix (Fin 1) (Fin 1) ℂ := (fun _ => (A 0 0).re, 1)

/-- Hypotheses of `C169_gauss`, with the parameters of the code. -/
example := C169_gauss (eigh := eigh1) order1 dimer one_pos one_pos one_pos (by norm_num [dimer]) 0 0 1e-10 1e-5 (by norm_num) (by norm_num) (by
  unfold Verif.Occ.gaussDelta
  have h : (1 : ℝ) ≤ Real.sqrt Real.pi := by
    rw [Real.one_le_sqrt]
    linarith [Real.pi_gt_three]
  have h2 : Real.exp (-0 * 0) / Real.sqrt Real.pi ≤ 1 := by
    rw [div_le_one (by linarith)]
    simpa using h
  have : dimer.kT = 1 := rfl
  rw [this]
  norm_num at h2 ⊢
  nlinarith)

/-- Hypotheses of `C169_depends`. -/
example := C169_depends (eigh := eigh1) order1 dimer one_pos one_pos one_pos (by norm_num [dimer]) (Verif.Occ.gaussDelta 0) 0 0 1e-10 1e-5 (by norm_num)

/-- Coupling of the dimer. -/
theorem dimer_coupled (x : X 2) : Coupled eigh1 dimer x 1 := by
  intro mu k n
  show |(((1 : Matrix (Fin 1) (Fin 1) ℂ).conjTranspose * dimer.d0 0 x k * (1 : Matrix (Fin 1) (Fin 1) ℂ)) n n).re| ≤ 1
  rw [Matrix.conjTranspose_one, Matrix.one_mul, Matrix.mul_one, Subsingleton.elim n 0]
  simp only [dimer]
  split_ifs <;> simp

/-- Hypotheses of `C169_history` and `C169_exact`: a slightly wrong and the exact guess. -/
example (d : ℝ) (hd : |number Verif.Occ.gauss 1 (energies eigh1 dimer) d - 1| < 1e-5) (h0 : number Verif.Occ.gauss 1 (energies eigh1 dimer) 0 = 1) (x : X 2) :
    |(stateAt eigh1 dimer d).jacobian Verif.Occ.gauss x - (stateAt eigh1 dimer 0).jacobian Verif.Occ.gauss x| ≤ 2 * 1e-5 * 1 :=
  (C169_history Verif.Occ.C35_gauss.anti.antitone (fun x => (Verif.Occ.C36_gauss x).1) Verif.Occ.C37_gauss dimer one_pos one_pos (delta0 := 1) (lo := 0) (hi := 0)
    (eps := 1e-10) (φ := order1) (C169_kept one_pos one_pos d hd 0)
    (C169_kept one_pos one_pos 0 (by
      show |number Verif.Occ.gauss 1 (energies eigh1 dimer) 0 - 1| < 1e-5
      rw [h0]
      norm_num) 0)).2 x 1 (dimer_coupled x)

/-- The assumption of the previous example. -/
example : number Verif.Occ.gauss 1 (energies eigh1 dimer) 0 = 1 := by
  have : ∀ k n, energies eigh1 dimer k n = 0 := by
    intro k n
    unfold energies eigh1 Driver.H
    have hc : center dimer.u = fun _ => 0 := by
      funext x
      simp [center, dimer]
    simp only [hc]
    simp [dimer]
  unfold number
  simp only [this]
  rw [sub_zero, zero_div, gauss_zero, Fintype.sum_prod_type]
  simp

end Verif.MD.Tolerance
