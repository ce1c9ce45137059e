import Mathlib.Analysis.Calculus.Deriv.Star
import Mathlib.Analysis.Calculus.Deriv.Mul
import Mathlib.Analysis.Calculus.Deriv.Add
import Mathlib.LinearAlgebra.Matrix.NonsingularInverse
import Mathlib.Analysis.Complex.RealDeriv
import Mathlib.Tactic.LinearCombination
import Mathlib.Tactic.NoncommRing
import Verif.MD.Model
import Verif.Diag.Potential
import Verif.Occ.Step

/-!
# Molecular dynamics (C55, C56, C89)
-/

namespace Verif.MD

open Verif.Diag
open Matrix

variable {n1 n2 n3 nb nat nq : Nat}

/-! ### C56 -/

/-- C56: after `center_mass`, displacements sum to zero in all directions. -/
theorem C56_zero (u : X nat → ℝ) (hn : 0 < nat) (x : Fin 3) : ∑ na, center u (na, x) = 0 := by
  unfold center
  simp only
  rw [Finset.sum_sub_distrib, Finset.sum_const, Finset.card_univ, Fintype.card_fin, nsmul_eq_mul,
    mul_div_cancel₀ _ (Nat.cast_ne_zero.2 hn.ne'), sub_self]

/-- C56: relative displacements do not change. -/
theorem C56_relative (u : X nat → ℝ) (a b : Fin nat) (x : Fin 3) :
    center u (a, x) - center u (b, x) = u (a, x) - u (b, x) := by
  unfold center
  ring

/-- C56: a second call changes nothing. -/
theorem C56_idempotent (u : X nat → ℝ) : center (center u) = center u := by
  funext i
  have hn : 0 < nat := Nat.pos_of_ne_zero fun h => by
    subst h
    exact i.1.elim0
  have h : center (center u) i = center u i - (∑ na, center u (na, i.2)) / nat := rfl
  rw [h, C56_zero u hn, zero_div, sub_zero]

/-- C56: collective displacements are removed. -/
theorem C56_translation (u : X nat → ℝ) (v : Fin 3 → ℝ) : center (fun i => u i + v i.2) = center u := by
  funext i
  have hn : (nat : ℝ) ≠ 0 := Nat.cast_ne_zero.2 fun h => by
    subst h
    exact i.1.elim0
  unfold center
  simp only
  rw [Finset.sum_add_distrib, Finset.sum_const, Finset.card_univ, Fintype.card_fin, nsmul_eq_mul, add_div,
    mul_div_cancel_left₀ _ hn]
  ring

/-- Two atoms displaced in different directions. -/
example : center (fun i : X 2 => if i = (0, 0) then 1 else 0) (1, 0) = -1 / 2 := by
  unfold center
  rw [Fin.sum_univ_two]
  norm_num

/-! ### C55 -/

section
variable [NeZero n1] [NeZero n2] [NeZero n3]

/-- C55: for a driver with `unscreen=True`, the Hessian is given by the original force constants for all q points. -/
theorem C55_hessian (eigh : Matrix (Fin nb) (Fin nb) ℂ → (Fin nb → ℝ) × Matrix (Fin nb) (Fin nb) ℂ)
    (level : (Mesh n1 n2 n3 → Fin nb → ℝ) → ℝ) (eps : ℝ) (occ delta : ℝ → ℝ) (kT n : ℝ)
    (q : Fin (nq + 1) → Fin 3 → ℝ) (H0 : Mesh n1 n2 n3 → Matrix (Fin nb) (Fin nb) ℂ)
    (C0 : Fin (nq + 1) → X nat → X nat → ℂ)
    (d0 : Fin (nq + 1) → X nat → Mesh n1 n2 n3 → Matrix (Fin nb) (Fin nb) ℂ) :
    (Driver.init eigh level eps occ delta true kT n q H0 C0 d0).hessian eps occ delta = C0 := by
  funext iq x y
  simp only [Driver.init, Driver.hessian, if_true]
  unfold Driver.electronic Driver.d Driver.diagonalize
  simp only
  ring

/-- C55: the forces on the undisplaced atoms vanish. -/
theorem C55_forces (eigh : Matrix (Fin nb) (Fin nb) ℂ → (Fin nb → ℝ) × Matrix (Fin nb) (Fin nb) ℂ)
    (level : (Mesh n1 n2 n3 → Fin nb → ℝ) → ℝ) (eps : ℝ) (occ delta : ℝ → ℝ) (unscreen : Bool) (kT n : ℝ)
    (q : Fin (nq + 1) → Fin 3 → ℝ) (H0 : Mesh n1 n2 n3 → Matrix (Fin nb) (Fin nb) ℂ)
    (C0 : Fin (nq + 1) → X nat → X nat → ℂ)
    (d0 : Fin (nq + 1) → X nat → Mesh n1 n2 n3 → Matrix (Fin nb) (Fin nb) ℂ) :
    (Driver.init eigh level eps occ delta unscreen kT n q H0 C0 d0).u = (fun _ => 0) ∧
    (Driver.init eigh level eps occ delta unscreen kT n q H0 C0 d0).jacobian occ = fun _ => 0 := by
  have hu : center (fun _ : X nat => (0 : ℝ)) = fun _ => 0 := by
    funext i
    unfold center
    simp
  constructor
  · cases unscreen <;> simp [Driver.init, Driver.diagonalize, hu]
  · funext x
    cases unscreen <;> simp [Driver.init, Driver.jacobian, Driver.diagonalize, hu]

end

/-! ### C89: derivatives -/

/-- Specification of a diagonalized state: eigenvalues relative to the chemical potential, orthonormal eigenvectors, number
of electrons. -/
structure Diagonalized (occ : ℝ → ℝ) (s : Driver n1 n2 n3 nb nat nq) : Prop where
  eig : ∀ k, s.H k * s.U k = s.U k * diagonal fun n => ((s.e k n + s.mu : ℝ) : ℂ)
  unitary : ∀ k, (s.U k)ᴴ * s.U k = 1
  number : 2 / (n1 * n2 * n3 : Nat) * (∑ k, ∑ n, occ (s.e k n / s.kT)) = s.n

/-- C89: the result of `diagonalize` meets the specification if the external functions do (for Hermitian matrices). -/
theorem C89_diagonalized (occ : ℝ → ℝ) (eigh : Matrix (Fin nb) (Fin nb) ℂ → (Fin nb → ℝ) × Matrix (Fin nb) (Fin nb) ℂ)
    (level : (Mesh n1 n2 n3 → Fin nb → ℝ) → ℝ) (s : Driver n1 n2 n3 nb nat nq)
    (h1 : ∀ A : Matrix (Fin nb) (Fin nb) ℂ, Aᴴ = A → A * (eigh A).2 = (eigh A).2 * diagonal fun n => (((eigh A).1 n : ℝ) : ℂ))
    (h2 : ∀ A : Matrix (Fin nb) (Fin nb) ℂ, Aᴴ = A → (eigh A).2ᴴ * (eigh A).2 = 1)
    (h3 : ∀ e : Mesh n1 n2 n3 → Fin nb → ℝ, 2 / (n1 * n2 * n3 : Nat) * (∑ k, ∑ n, occ ((e k n - level e) / s.kT)) = s.n)
    (h4 : ∀ k, (s.H0 k)ᴴ = s.H0 k) (h5 : ∀ x k, (s.d0 0 x k)ᴴ = s.d0 0 x k) :
    Diagonalized occ (s.diagonalize eigh level) :=
  have hH : ∀ k, ((s.diagonalize eigh level).H k)ᴴ = (s.diagonalize eigh level).H k := fun k => by
    simp only [Driver.diagonalize, Driver.H, Matrix.conjTranspose_add, Matrix.conjTranspose_sum, Matrix.conjTranspose_smul,
      h4, h5, Complex.star_def, Complex.conj_ofReal]
  { eig := fun k => by
      simp only [Driver.diagonalize, sub_add_cancel]
      exact h1 _ (hH k)
    unitary := fun k => h2 _ (hH k)
    number := h3 _ }

example (s : Driver 1 1 1 1 nat nq) (hn : s.n = 1) (h4 : ∀ k, (s.H0 k)ᴴ = s.H0 k) (h5 : ∀ x k, (s.d0 0 x k)ᴴ = s.d0 0 x k) :
    Diagonalized Verif.Occ.fermi (s.diagonalize (fun A => (fun _ => (A 0 0).re, 1)) fun e => e (0, 0, 0) 0) := by
  refine C89_diagonalized _ _ _ s (fun A hA => ?_) (fun A _ => by simp) (fun e => ?_) h4 h5
  · rw [Matrix.mul_one, Matrix.one_mul]
    ext i j
    rw [Subsingleton.elim i 0, Subsingleton.elim j 0, Matrix.diagonal_apply_eq]
    have : star (A 0 0) = A 0 0 := congrFun (congrFun hA 0) 0
    exact (Complex.conj_eq_iff_re.1 this).symm
  · rw [hn]
    have h0 : ∀ k : Mesh 1 1 1, k = (0, 0, 0) := fun k => Subsingleton.elim _ _
    rw [Fintype.sum_eq_single (0, 0, 0) (fun k hk => absurd (h0 k) hk)]
    simp [Verif.Occ.fermi]
    norm_num

/-- The driver with other displacements, eigenvalues, eigenvectors, and chemical potential. -/
def Driver.move (s : Driver n1 n2 n3 nb nat nq) (u : X nat → ℝ) (e : Mesh n1 n2 n3 → Fin nb → ℝ)
    (U : Mesh n1 n2 n3 → Matrix (Fin nb) (Fin nb) ℂ) (mu : ℝ) : Driver n1 n2 n3 nb nat nq :=
  { s with u := u, e := e, U := U, mu := mu }

/-- A differentiable path of states. -/
structure Path (occ : ℝ → ℝ) (s : Driver n1 n2 n3 nb nat nq) (u : ℝ → X nat → ℝ) (e : ℝ → Mesh n1 n2 n3 → Fin nb → ℝ)
    (U : ℝ → Mesh n1 n2 n3 → Matrix (Fin nb) (Fin nb) ℂ) (mu : ℝ → ℝ) (t : ℝ) (u' : X nat → ℝ)
    (e' : Mesh n1 n2 n3 → Fin nb → ℝ) (U' : Mesh n1 n2 n3 → Matrix (Fin nb) (Fin nb) ℂ) (mu' : ℝ) : Prop where
  diag : ∀ t, Diagonalized occ (s.move (u t) (e t) (U t) (mu t))
  du : ∀ x, HasDerivAt (fun t => u t x) (u' x) t
  de : ∀ k n, HasDerivAt (fun t => e t k n) (e' k n) t
  dU : ∀ k a n, HasDerivAt (fun t => U t k a n) (U' k a n) t
  dmu : HasDerivAt mu mu' t

theorem hasDerivAt_ofReal {f : ℝ → ℝ} {f' t : ℝ} (h : HasDerivAt f f' t) :
    HasDerivAt (fun t => (f t : ℂ)) (f' : ℂ) t := h.ofReal_comp

/-- Derivative of the eigenvalue equation. -/
theorem perturbation (U U' H H' D D' : Matrix (Fin nb) (Fin nb) ℂ) (h1 : H * U = U * D) (h2 : Uᴴ * U = 1)
    (h3 : H' * U + H * U' = U' * D + U * D') : Uᴴ * H' * U = Uᴴ * U' * D - D * (Uᴴ * U') + D' := by
  have h4 : U * Uᴴ = 1 := mul_eq_one_comm.1 h2
  have h5 : Uᴴ * H = D * Uᴴ := by
    calc Uᴴ * H = Uᴴ * H * (U * Uᴴ) := by rw [h4, Matrix.mul_one]
      _ = Uᴴ * (H * U) * Uᴴ := by noncomm_ring
      _ = (Uᴴ * U) * D * Uᴴ := by rw [h1]; noncomm_ring
      _ = D * Uᴴ := by rw [h2, Matrix.one_mul]
  calc Uᴴ * H' * U = Uᴴ * (H' * U + H * U') - Uᴴ * H * U' := by noncomm_ring
    _ = Uᴴ * U' * D + (Uᴴ * U) * D' - D * Uᴴ * U' := by rw [h3, h5]; noncomm_ring
    _ = _ := by rw [h2]; noncomm_ring

section path
variable [NeZero n1] [NeZero n2] [NeZero n3] {occ : ℝ → ℝ} {s : Driver n1 n2 n3 nb nat nq} {u : ℝ → X nat → ℝ} {e : ℝ → Mesh n1 n2 n3 → Fin nb → ℝ}
  {U : ℝ → Mesh n1 n2 n3 → Matrix (Fin nb) (Fin nb) ℂ} {mu : ℝ → ℝ} {t : ℝ} {u' : X nat → ℝ}
  {e' : Mesh n1 n2 n3 → Fin nb → ℝ} {U' : Mesh n1 n2 n3 → Matrix (Fin nb) (Fin nb) ℂ} {mu' : ℝ}

/-- Change of the Hamiltonian in the orbital basis. -/
noncomputable def dH (s : Driver n1 n2 n3 nb nat nq) (u' : X nat → ℝ) (k : Mesh n1 n2 n3) : Matrix (Fin nb) (Fin nb) ℂ :=
  ∑ x, (u' x : ℂ) • s.d0 0 x k

theorem H_hasDerivAt (h : Path occ s u e U mu t u' e' U' mu') (k : Mesh n1 n2 n3) (a b : Fin nb) :
    HasDerivAt (fun t => (s.move (u t) (e t) (U t) (mu t)).H k a b) (dH s u' k a b) t := by
  unfold Driver.H Driver.move dH
  simp only [Matrix.add_apply, Matrix.sum_apply, Matrix.smul_apply, smul_eq_mul]
  refine HasDerivAt.const_add _ (HasDerivAt.fun_sum fun x _ => ?_)
  exact (hasDerivAt_ofReal (h.du x)).mul_const _

/-- First-order perturbation theory for the path. -/
theorem path_eq (h : Path occ s u e U mu t u' e' U' mu') (k : Mesh n1 n2 n3) :
    (U t k)ᴴ * dH s u' k * U t k = (U t k)ᴴ * U' k * diagonal (fun n => ((e t k n + mu t : ℝ) : ℂ)) -
      diagonal (fun n => ((e t k n + mu t : ℝ) : ℂ)) * ((U t k)ᴴ * U' k) +
      diagonal fun n => ((e' k n + mu' : ℝ) : ℂ) := by
  refine perturbation _ _ ((s.move (u t) (e t) (U t) (mu t)).H k) _ _ _ ((h.diag t).eig k) ((h.diag t).unitary k) ?_
  ext a n
  have h1 : HasDerivAt (fun t => ∑ b, (s.move (u t) (e t) (U t) (mu t)).H k a b * U t k b n)
      (∑ b, (dH s u' k a b * U t k b n + (s.move (u t) (e t) (U t) (mu t)).H k a b * U' k b n)) t :=
    HasDerivAt.fun_sum fun b _ => (H_hasDerivAt h k a b).mul (h.dU k b n)
  have h2 : HasDerivAt (fun t => U t k a n * ((e t k n + mu t : ℝ) : ℂ))
      (U' k a n * ((e t k n + mu t : ℝ) : ℂ) + U t k a n * ((e' k n + mu' : ℝ) : ℂ)) t :=
    (h.dU k a n).mul (hasDerivAt_ofReal ((h.de k n).add h.dmu))
  have h3 : (fun t => ∑ b, (s.move (u t) (e t) (U t) (mu t)).H k a b * U t k b n) =
      fun t => U t k a n * ((e t k n + mu t : ℝ) : ℂ) := by
    funext t
    have := congrFun (congrFun ((h.diag t).eig k) a) n
    rw [Matrix.mul_diagonal, Matrix.mul_apply] at this
    exact this
  rw [h3] at h1
  have h4 := h1.unique h2
  rw [Matrix.add_apply, Matrix.add_apply, Matrix.mul_apply, Matrix.mul_apply, ← Finset.sum_add_distrib, h4,
    Matrix.mul_diagonal, Matrix.mul_diagonal]

theorem anti (h : Path occ s u e U mu t u' e' U' mu') (k : Mesh n1 n2 n3) :
    ((U t k)ᴴ * U' k)ᴴ = -((U t k)ᴴ * U' k) := by
  rw [eq_neg_iff_add_eq_zero, conjTranspose_mul, conjTranspose_conjTranspose]
  ext m n
  have h1 : HasDerivAt (fun t => ∑ a, star (U t k a m) * U t k a n)
      (∑ a, (star (U' k a m) * U t k a n + star (U t k a m) * U' k a n)) t :=
    HasDerivAt.fun_sum fun a _ => (h.dU k a m).star.mul (h.dU k a n)
  have h2 : (fun t => ∑ a, star (U t k a m) * U t k a n) = fun _ => (1 : Matrix (Fin nb) (Fin nb) ℂ) m n := by
    funext t
    have := congrFun (congrFun ((h.diag t).unitary k) m) n
    rw [Matrix.mul_apply] at this
    exact this
  rw [h2] at h1
  have h3 := h1.unique (hasDerivAt_const t _)
  rw [Finset.sum_add_distrib] at h3
  rw [Matrix.add_apply, Matrix.mul_apply, Matrix.mul_apply, Matrix.zero_apply]
  exact h3

/-- Derivatives of eigenvalues (Hellmann-Feynman theorem). -/
theorem hellmann_feynman (h : Path occ s u e U mu t u' e' U' mu') (k : Mesh n1 n2 n3) (n : Fin nb) :
    ((e' k n + mu' : ℝ) : ℂ) = ((U t k)ᴴ * dH s u' k * U t k) n n := by
  rw [path_eq h k]
  simp only [Matrix.add_apply, Matrix.sub_apply, Matrix.mul_diagonal, Matrix.diagonal_mul, Matrix.diagonal_apply_eq]
  ring

theorem firstOrderU_eq (kT : ℝ) (occ : ℝ → ℝ) (e : Mesh n1 n2 n3 → Fin nb → ℝ)
    (U : Mesh n1 n2 n3 → Matrix (Fin nb) (Fin nb) ℂ) (g : Mesh n1 n2 n3 → Matrix (Fin nb) (Fin nb) ℂ) :
    firstOrderU kT occ e U g = 2 / (n1 * n2 * n3 : Nat) * ∑ k, ∑ n, (occ (e k n / kT) : ℂ) * ((U k)ᴴ * g k * U k) n n := by
  refine (C81_basis kT occ e U g).trans ?_
  unfold firstOrder
  congr 1
  refine Finset.sum_congr rfl fun k _ => Finset.sum_congr rfl fun n _ => ?_
  congr 1
  rw [Matrix.mul_apply]
  refine Eq.trans Finset.sum_comm ?_
  refine Finset.sum_congr rfl fun b _ => ?_
  rw [Matrix.mul_apply, Finset.sum_mul]
  rfl

/-- C89: the forces returned by `jacobian` are the derivative of the free energy along every differentiable path of
(diagonalized) states. -/
theorem C89_gradient (h : Path occ s u e U mu t u' e' U' mu') (delta entropy : ℝ → ℝ) (hkT : s.kT ≠ 0)
    (ho : ∀ k n, HasDerivAt occ (-delta (e t k n / s.kT)) (e t k n / s.kT))
    (hs : ∀ k n, HasDerivAt entropy (-(e t k n / s.kT) * delta (e t k n / s.kT)) (e t k n / s.kT))
    (hC : ∀ x y, (s.C0 0 x y).re = (s.C0 0 y x).re) :
    HasDerivAt (fun τ => (s.move (u τ) (e τ) (U τ) (mu τ)).freeEnergy occ entropy)
      (∑ x, (s.move (u t) (e t) (U t) (mu t)).jacobian occ x * u' x) t := by
  set N : ℝ := 2 / (n1 * n2 * n3 : Nat) with hN
  have hx : ∀ k n, HasDerivAt (fun τ => e τ k n / s.kT) (e' k n / s.kT) t := fun k n => (h.de k n).div_const _
  have hocc : ∀ k n, HasDerivAt (fun τ => occ (e τ k n / s.kT)) (-delta (e t k n / s.kT) * (e' k n / s.kT)) t :=
    fun k n => HasDerivAt.comp (h₂ := occ) t (ho k n) (hx k n)
  have hent : ∀ k n, HasDerivAt (fun τ => entropy (e τ k n / s.kT))
      (-(e t k n / s.kT) * delta (e t k n / s.kT) * (e' k n / s.kT)) t :=
    fun k n => HasDerivAt.comp (h₂ := entropy) t (hs k n) (hx k n)
  have h1 : HasDerivAt (fun τ => ∑ k, ∑ n, occ (e τ k n / s.kT) * e τ k n)
      (∑ k, ∑ n, (-delta (e t k n / s.kT) * (e' k n / s.kT) * e t k n + occ (e t k n / s.kT) * e' k n)) t :=
    HasDerivAt.fun_sum fun k _ => HasDerivAt.fun_sum fun n _ => (hocc k n).mul (h.de k n)
  have h2 : HasDerivAt (fun τ => ∑ k, ∑ n, entropy (e τ k n / s.kT))
      (∑ k, ∑ n, -(e t k n / s.kT) * delta (e t k n / s.kT) * (e' k n / s.kT)) t :=
    HasDerivAt.fun_sum fun k _ => HasDerivAt.fun_sum fun n _ => hent k n
  have h3 : HasDerivAt (fun τ => ∑ x, ∑ y, u τ x * (s.C0 0 x y).re * u τ y)
      (∑ x, ∑ y, (u' x * (s.C0 0 x y).re * u t y + u t x * (s.C0 0 x y).re * u' y)) t :=
    HasDerivAt.fun_sum fun x _ => HasDerivAt.fun_sum fun y _ => ((h.du x).mul_const _).mul (h.du y)
  have h4 : HasDerivAt (fun τ => ∑ x, s.F0 x * u τ x) (∑ x, s.F0 x * u' x) t :=
    HasDerivAt.fun_sum fun x _ => (h.du x).const_mul _
  have h5 := ((((h1.const_mul N).add (h.dmu.mul_const s.n)).sub (h2.const_mul (N * s.kT))).add (h3.const_mul 0.5)).add h4
  refine (h5.congr_deriv ?_)
  -- electronic part
  have hband : N * (∑ k, ∑ n, (-delta (e t k n / s.kT) * (e' k n / s.kT) * e t k n + occ (e t k n / s.kT) * e' k n)) +
      mu' * s.n - N * s.kT * (∑ k, ∑ n, -(e t k n / s.kT) * delta (e t k n / s.kT) * (e' k n / s.kT)) =
      N * ∑ k, ∑ n, occ (e t k n / s.kT) * (e' k n + mu') := by
    have hnum : N * (∑ k, ∑ n, occ (e t k n / s.kT)) = s.n := (h.diag t).number
    rw [← hnum, Finset.mul_sum, Finset.mul_sum, Finset.mul_sum, Finset.mul_sum, Finset.mul_sum, ← Finset.sum_add_distrib,
      ← Finset.sum_sub_distrib]
    refine Finset.sum_congr rfl fun k _ => ?_
    rw [Finset.mul_sum, Finset.mul_sum, Finset.mul_sum, Finset.mul_sum, Finset.mul_sum, ← Finset.sum_add_distrib,
      ← Finset.sum_sub_distrib]
    refine Finset.sum_congr rfl fun n _ => ?_
    field_simp
    ring
  have hforce : N * (∑ k, ∑ n, occ (e t k n / s.kT) * (e' k n + mu')) =
      ∑ x, (firstOrderU s.kT occ (e t) (U t) (s.d0 0 x)).re * u' x := by
    have hc : ((N * (∑ k, ∑ n, occ (e t k n / s.kT) * (e' k n + mu')) : ℝ) : ℂ) =
        ∑ x, firstOrderU s.kT occ (e t) (U t) (s.d0 0 x) * (u' x : ℂ) := by
      simp only [firstOrderU_eq]
      push_cast
      have : ∀ x, 2 / ((n1 : ℂ) * n2 * n3) * (∑ k, ∑ n, (occ (e t k n / s.kT) : ℂ) * ((U t k)ᴴ * s.d0 0 x k * U t k) n n) *
          (u' x : ℂ) = 2 / ((n1 : ℂ) * n2 * n3) * ∑ k, ∑ n, (occ (e t k n / s.kT) : ℂ) *
            ((u' x : ℂ) * ((U t k)ᴴ * s.d0 0 x k * U t k) n n) := by
        intro x
        rw [mul_assoc, Finset.sum_mul]
        congr 1
        refine Finset.sum_congr rfl fun k _ => ?_
        rw [Finset.sum_mul]
        refine Finset.sum_congr rfl fun n _ => ?_
        ring
      rw [Finset.sum_congr rfl fun x _ => this x, ← Finset.mul_sum]
      rw [hN]
      push_cast
      congr 1
      conv_rhs => rw [Finset.sum_comm]
      refine Finset.sum_congr rfl fun k _ => ?_
      conv_rhs => rw [Finset.sum_comm]
      refine Finset.sum_congr rfl fun n _ => ?_
      rw [← Finset.mul_sum]
      congr 1
      have := hellmann_feynman h k n
      push_cast at this
      rw [this, dH, Matrix.mul_sum, Matrix.sum_mul, Matrix.sum_apply]
      refine Finset.sum_congr rfl fun x _ => ?_
      rw [Matrix.mul_smul, Matrix.smul_mul, Matrix.smul_apply, smul_eq_mul]
    have := congrArg Complex.re hc
    rw [Complex.ofReal_re, Complex.re_sum] at this
    rw [this]
    refine Finset.sum_congr rfl fun x _ => ?_
    rw [Complex.re_mul_ofReal]
  have hlat : (0.5 : ℝ) * (∑ x, ∑ y, (u' x * (s.C0 0 x y).re * u t y + u t x * (s.C0 0 x y).re * u' y)) =
      ∑ x, (∑ y, (s.C0 0 x y).re * u t y) * u' x := by
    have h1 : ∑ x, ∑ y, u t x * (s.C0 0 x y).re * u' y = ∑ x, ∑ y, u' x * (s.C0 0 x y).re * u t y := by
      rw [Finset.sum_comm]
      refine Finset.sum_congr rfl fun x _ => Finset.sum_congr rfl fun y _ => ?_
      rw [hC y x]
      ring
    simp only [Finset.sum_add_distrib]
    rw [h1, ← two_mul, ← mul_assoc]
    norm_num
    refine Finset.sum_congr rfl fun x _ => ?_
    rw [Finset.sum_mul]
    refine Finset.sum_congr rfl fun y _ => ?_
    ring
  rw [hband, hforce, hlat, ← Finset.sum_add_distrib, ← Finset.sum_add_distrib]
  refine Finset.sum_congr rfl fun x _ => ?_
  unfold Driver.jacobian Driver.move
  simp only
  ring

/-- Coupling in the band basis. -/
noncomputable def band (s : Driver n1 n2 n3 nb nat nq) (U : Mesh n1 n2 n3 → Matrix (Fin nb) (Fin nb) ℂ) (x : X nat)
    (k : Mesh n1 n2 n3) : Matrix (Fin nb) (Fin nb) ℂ := (U k)ᴴ * s.d0 0 x k * U k

theorem band_hasDerivAt (h : Path occ s u e U mu t u' e' U' mu') (x : X nat) (k : Mesh n1 n2 n3) (m n : Fin nb) :
    HasDerivAt (fun τ => band s (U τ) x k m n) (((U' k)ᴴ * s.d0 0 x k * U t k + (U t k)ᴴ * s.d0 0 x k * U' k) m n) t := by
  unfold band
  simp only [Matrix.add_apply, Matrix.mul_apply, conjTranspose_apply]
  rw [← Finset.sum_add_distrib]
  exact HasDerivAt.fun_sum fun b _ => (HasDerivAt.fun_sum fun a _ => (h.dU k a m).star.mul_const _).mul (h.dU k b n)

/-- The change of the eigenvectors in terms of the coefficients `W`. -/
theorem band_change (h : Path occ s u e U mu t u' e' U' mu') (x : X nat) (k : Mesh n1 n2 n3) (n : Fin nb) :
    ((U' k)ᴴ * s.d0 0 x k * U t k + (U t k)ᴴ * s.d0 0 x k * U' k) n n =
      ∑ m, (band s (U t) x k n m * ((U t k)ᴴ * U' k) m n - ((U t k)ᴴ * U' k) n m * band s (U t) x k m n) := by
  have h4 : U t k * (U t k)ᴴ = 1 := mul_eq_one_comm.1 ((h.diag t).unitary k)
  have h5 : (U t k)ᴴ * s.d0 0 x k * U' k = band s (U t) x k * ((U t k)ᴴ * U' k) := by
    unfold band
    calc (U t k)ᴴ * s.d0 0 x k * U' k = (U t k)ᴴ * s.d0 0 x k * (U t k * (U t k)ᴴ) * U' k := by rw [h4, Matrix.mul_one]
      _ = _ := by noncomm_ring
  have h6 : (U' k)ᴴ * s.d0 0 x k * U t k = -(((U t k)ᴴ * U' k) * band s (U t) x k) := by
    rw [← neg_mul, ← anti h k]
    unfold band
    rw [conjTranspose_mul, conjTranspose_conjTranspose]
    calc (U' k)ᴴ * s.d0 0 x k * U t k = (U' k)ᴴ * (U t k * (U t k)ᴴ) * s.d0 0 x k * U t k := by rw [h4, Matrix.mul_one]
      _ = _ := by noncomm_ring
  rw [h5, h6, Matrix.add_apply, Matrix.neg_apply, Matrix.mul_apply, Matrix.mul_apply, Finset.sum_sub_distrib]
  ring

theorem band_hermitian (s : Driver n1 n2 n3 nb nat nq) (hd : ∀ x k, (s.d0 0 x k)ᴴ = s.d0 0 x k)
    (U : Mesh n1 n2 n3 → Matrix (Fin nb) (Fin nb) ℂ) (x : X nat) (k : Mesh n1 n2 n3) (m n : Fin nb) :
    star (band s U x k m n) = band s U x k n m := by
  have : (band s U x k)ᴴ = band s U x k := by
    unfold band
    rw [conjTranspose_mul, conjTranspose_mul, conjTranspose_conjTranspose, hd, Matrix.mul_assoc]
  rw [← conjTranspose_apply, this]

theorem onMesh_zero : OnMesh (fun _ => 0) (0 : Mesh n1 n2 n3) := ⟨fun _ => 0, by simp⟩

theorem weights_zero (eps kT : ℝ) (occ delta : ℝ → ℝ) (e : Mesh n1 n2 n3 → Fin nb → ℝ) (k : Mesh n1 n2 n3) (m n : Fin nb) :
    weights eps kT occ delta none e (fun _ => 0) k m n =
      if |e k n - e k m| > eps then (occ (e k n / kT) - occ (e k m / kT)) / (e k n - e k m) else
        delta (e k n / kT) / -kT := by
  unfold weights dfde envelope
  simp only [slice_q _ _ 0 k onMesh_zero, add_zero, mul_one]

theorem d_zero (s : Driver n1 n2 n3 nb nat nq) (hq : s.q 0 = fun _ => 0) (x : X nat) (k : Mesh n1 n2 n3) :
    s.d 0 x k = band s s.U x k := by
  unfold Driver.d band
  rw [hq, slice_q _ _ 0 k onMesh_zero, add_zero]

theorem band_sum (s : Driver n1 n2 n3 nb nat nq) (u' : X nat → ℝ) (U : Mesh n1 n2 n3 → Matrix (Fin nb) (Fin nb) ℂ)
    (k : Mesh n1 n2 n3) (m n : Fin nb) : ∑ y, band s U y k m n * (u' y : ℂ) = ((U k)ᴴ * dH s u' k * U k) m n := by
  rw [dH, Matrix.mul_sum, Matrix.sum_mul, Matrix.sum_apply]
  refine Finset.sum_congr rfl fun x _ => ?_
  rw [Matrix.mul_smul, Matrix.smul_mul, Matrix.smul_apply, smul_eq_mul, mul_comm]
  rfl

/-- C89: the Hessian for zero wave vector is the derivative of the forces returned by `jacobian` along every differentiable
path of (diagonalized) states. Energies which are not equal must differ by more than the threshold `eps`. -/
theorem C89_hessian (h : Path occ s u e U mu t u' e' U' mu') (eps : ℝ) (heps : 0 ≤ eps) (delta : ℝ → ℝ)
    (hkT : s.kT ≠ 0) (ho : ∀ k n, HasDerivAt occ (-delta (e t k n / s.kT)) (e t k n / s.kT)) (hq : s.q 0 = fun _ => 0)
    (hd : ∀ x k, (s.d0 0 x k)ᴴ = s.d0 0 x k) (hsep : ∀ k m n, e t k m ≠ e t k n → eps < |e t k m - e t k n|)
    (hdos : ∑ k, ∑ n, delta (e t k n / s.kT) ≠ 0) (x : X nat) :
    HasDerivAt (fun τ => (s.move (u τ) (e τ) (U τ) (mu τ)).jacobian occ x)
      (∑ y, (s.move (u t) (e t) (U t) (mu t)).hessianGamma eps occ delta x y * u' y) t := by
  set N : ℂ := 2 / (n1 * n2 * n3 : Nat) with hN
  set d : Mesh n1 n2 n3 → Fin nb → ℝ := fun k n => delta (e t k n / s.kT) / s.kT with hdd
  set dos : ℝ := ∑ k, ∑ n, d k n with hdosd
  have hdos0 : dos ≠ 0 := by
    rw [hdosd, hdd]
    simp only [← Finset.sum_div]
    exact div_ne_zero hdos hkT
  have hx : ∀ k n, HasDerivAt (fun τ => e τ k n / s.kT) (e' k n / s.kT) t := fun k n => (h.de k n).div_const _
  have hocc : ∀ k n, HasDerivAt (fun τ => occ (e τ k n / s.kT)) (-(d k n * e' k n)) t :=
    fun k n => (HasDerivAt.comp (h₂ := occ) t (ho k n) (hx k n)).congr_deriv (by rw [hdd]; ring)
  -- change of the chemical potential
  have hmu : ∑ k, ∑ n, d k n * e' k n = 0 := by
    have h1 : HasDerivAt (fun τ => 2 / ((n1 * n2 * n3 : Nat) : ℝ) * (∑ k, ∑ n, occ (e τ k n / s.kT)))
        (2 / ((n1 * n2 * n3 : Nat) : ℝ) * ∑ k, ∑ n, -(d k n * e' k n)) t :=
      (HasDerivAt.fun_sum fun k _ => HasDerivAt.fun_sum fun n _ => hocc k n).const_mul _
    have h2 : (fun τ => 2 / ((n1 * n2 * n3 : Nat) : ℝ) * (∑ k, ∑ n, occ (e τ k n / s.kT))) = fun _ => s.n := by
      funext τ
      exact (h.diag τ).number
    rw [h2] at h1
    have h3 := h1.unique (hasDerivAt_const t _)
    simp only [Finset.sum_neg_distrib, mul_neg, neg_eq_zero, mul_eq_zero, div_eq_zero_iff, Nat.cast_eq_zero] at h3
    rcases h3 with (h3 | h3) | h3
    · norm_num at h3
    · exact absurd h3 (by simp [NeZero.ne])
    · exact h3
  -- complex derivative
  have hF : HasDerivAt (fun τ => firstOrderU s.kT occ (e τ) (U τ) (s.d0 0 x))
      (N * ∑ k, ∑ n, (((-(d k n * e' k n) : ℝ) : ℂ) * band s (U t) x k n n + (occ (e t k n / s.kT) : ℂ) *
        ((U' k)ᴴ * s.d0 0 x k * U t k + (U t k)ᴴ * s.d0 0 x k * U' k) n n)) t := by
    have : (fun τ => firstOrderU s.kT occ (e τ) (U τ) (s.d0 0 x)) =
        fun τ => N * ∑ k, ∑ n, (occ (e τ k n / s.kT) : ℂ) * band s (U τ) x k n n := by
      funext τ
      exact firstOrderU_eq _ _ _ _ _
    rw [this]
    refine (HasDerivAt.fun_sum fun k _ => HasDerivAt.fun_sum fun n _ => ?_).const_mul _
    exact (hasDerivAt_ofReal (hocc k n)).mul (band_hasDerivAt h x k n n)
  set w : Mesh n1 n2 n3 → Fin nb → Fin nb → ℝ := weights eps s.kT occ delta none (e t) fun _ => 0 with hw
  set G' : Mesh n1 n2 n3 → Matrix (Fin nb) (Fin nb) ℂ := fun k => (U t k)ᴴ * dH s u' k * U t k with hG'
  have hkey : ∀ k m n, star (band s (U t) x k m n) * G' k m n * (w k m n : ℂ) =
      ((occ (e t k n / s.kT) - occ (e t k m / s.kT) : ℝ) : ℂ) * band s (U t) x k n m * ((U t k)ᴴ * U' k) m n +
        if m = n then -((d k n * (e' k n + mu') : ℝ) : ℂ) * band s (U t) x k n n else 0 := by
    intro k m n
    rw [band_hermitian s hd, hG']
    simp only
    rw [path_eq h k]
    simp only [Matrix.add_apply, Matrix.sub_apply, Matrix.mul_diagonal, Matrix.diagonal_mul]
    rw [hw, weights_zero]
    by_cases hmn : m = n
    · subst hmn
      rw [sub_self, abs_zero, if_neg (not_lt.2 heps), if_pos rfl, Matrix.diagonal_apply_eq, hdd]
      push_cast
      have : (s.kT : ℂ) ≠ 0 := by exact_mod_cast hkT
      field_simp
      ring
    · rw [if_neg hmn, Matrix.diagonal_apply_ne _ hmn]
      by_cases he : e t k n = e t k m
      · rw [he]
        push_cast
        ring
      · rw [if_pos (hsep k n m he)]
        have : ((e t k n : ℂ)) - (e t k m : ℂ) ≠ 0 := by
          rw [sub_ne_zero]
          exact_mod_cast he
        push_cast
        field_simp
        ring
  have hPi : (∑ y, selfEnergy false false (fun k m n => (w k m n : ℂ)) (fun _ _ => 0) (band s (U t)) none x y *
      (u' y : ℂ)) = N * ∑ k, ∑ m, ∑ n, star (band s (U t) x k m n) * G' k m n * (w k m n : ℂ) := by
    have h1 : ∀ y, selfEnergy false false (fun k m n => (w k m n : ℂ)) (fun _ _ => 0) (band s (U t)) none x y * (u' y : ℂ) =
        N * ∑ k, ∑ m, ∑ n, star (band s (U t) x k m n) * (band s (U t) y k m n * (u' y : ℂ)) * (w k m n : ℂ) := by
      intro y
      unfold selfEnergy contact piK
      simp only [Complex.ofReal_zero, zero_div, mul_zero, zero_mul, Finset.sum_const_zero, add_zero, Bool.false_eq_true,
        false_and, if_false]
      rw [mul_assoc, Finset.sum_mul]
      congr 1
      refine Finset.sum_congr rfl fun k _ => ?_
      rw [Finset.sum_mul]
      refine Finset.sum_congr rfl fun m _ => ?_
      rw [Finset.sum_mul]
      refine Finset.sum_congr rfl fun n _ => ?_
      ring
    rw [Finset.sum_congr rfl fun y _ => h1 y, ← Finset.mul_sum, Finset.sum_comm]
    congr 1
    refine Finset.sum_congr rfl fun k _ => ?_
    rw [Finset.sum_comm]
    refine Finset.sum_congr rfl fun m _ => ?_
    rw [Finset.sum_comm]
    refine Finset.sum_congr rfl fun n _ => ?_
    rw [hG']
    simp only
    rw [← band_sum, Finset.mul_sum, Finset.sum_mul]
  have hshift : (∑ y, fermiShift s.kT delta (e t) (band s (U t)) x y * (u' y : ℂ)) =
      N * ((mu' : ℂ) * ∑ k, ∑ n, (d k n : ℂ) * band s (U t) x k n n) := by
    have hdosC : (dos : ℂ) ≠ 0 := by exact_mod_cast hdos0
    have h1 : ∑ y, (∑ k, ∑ n, (d k n : ℂ) * band s (U t) y k n n) * (u' y : ℂ) = (mu' : ℂ) * (dos : ℂ) := by
      have h2 : ∑ y, (∑ k, ∑ n, (d k n : ℂ) * band s (U t) y k n n) * (u' y : ℂ) =
          ∑ k, ∑ n, (d k n : ℂ) * ((e' k n + mu' : ℝ) : ℂ) := by
        simp only [Finset.sum_mul]
        rw [Finset.sum_comm]
        refine Finset.sum_congr rfl fun k _ => ?_
        rw [Finset.sum_comm]
        refine Finset.sum_congr rfl fun n _ => ?_
        rw [hellmann_feynman h k n, ← band_sum, Finset.mul_sum]
        refine Finset.sum_congr rfl fun y _ => ?_
        ring
      rw [h2]
      have h3 : ∑ k, ∑ n, d k n * (e' k n + mu') = mu' * dos := by
        simp only [mul_add, Finset.sum_add_distrib]
        rw [hmu, zero_add, hdosd, Finset.mul_sum]
        refine Finset.sum_congr rfl fun k _ => ?_
        rw [Finset.mul_sum]
        refine Finset.sum_congr rfl fun n _ => ?_
        ring
      exact_mod_cast h3
    have h4 : ∀ y, fermiShift s.kT delta (e t) (band s (U t)) x y * (u' y : ℂ) =
        N * (∑ k, ∑ n, (d k n : ℂ) * band s (U t) x k n n) / (dos : ℂ) *
          ((∑ k, ∑ n, (d k n : ℂ) * band s (U t) y k n n) * (u' y : ℂ)) := by
      intro y
      unfold fermiShift
      simp only
      rw [← hN, ← hdosd]
      simp only [hdd] at *
      field_simp
    rw [Finset.sum_congr rfl fun y _ => h4 y, ← Finset.mul_sum, h1]
    field_simp
  have helec : N * (∑ k, ∑ n, (((-(d k n * e' k n) : ℝ) : ℂ) * band s (U t) x k n n + (occ (e t k n / s.kT) : ℂ) *
        ((U' k)ᴴ * s.d0 0 x k * U t k + (U t k)ᴴ * s.d0 0 x k * U' k) n n)) =
      ∑ y, (s.move (u t) (e t) (U t) (mu t)).electronic eps occ delta 0 x y * (u' y : ℂ) := by
    have h1 : ∀ y, (s.move (u t) (e t) (U t) (mu t)).electronic eps occ delta 0 x y * (u' y : ℂ) =
        selfEnergy false false (fun k m n => (w k m n : ℂ)) (fun _ _ => 0) (band s (U t)) none x y * (u' y : ℂ) +
        fermiShift s.kT delta (e t) (band s (U t)) x y * (u' y : ℂ) := by
      intro y
      have hd0 : (s.move (u t) (e t) (U t) (mu t)).d 0 = band s (U t) := by
        funext x k
        exact d_zero (s.move (u t) (e t) (U t) (mu t)) hq x k
      unfold Driver.electronic
      rw [hd0, if_pos rfl, add_mul]
      simp only [Driver.move, hq]
      rfl
    rw [Finset.sum_congr rfl fun y _ => h1 y, Finset.sum_add_distrib, hPi, hshift, ← mul_add]
    congr 1
    simp only [hkey]
    rw [Finset.mul_sum, ← Finset.sum_add_distrib]
    refine Finset.sum_congr rfl fun k _ => ?_
    simp only [Finset.sum_add_distrib, Finset.sum_ite_eq, Finset.mem_univ, if_true]
    have h2 : ∑ n, (occ (e t k n / s.kT) : ℂ) * ((U' k)ᴴ * s.d0 0 x k * U t k + (U t k)ᴴ * s.d0 0 x k * U' k) n n =
        ∑ m, ∑ n, ((occ (e t k n / s.kT) - occ (e t k m / s.kT) : ℝ) : ℂ) * band s (U t) x k n m *
          ((U t k)ᴴ * U' k) m n := by
      have h3 : ∀ n, (occ (e t k n / s.kT) : ℂ) * ((U' k)ᴴ * s.d0 0 x k * U t k + (U t k)ᴴ * s.d0 0 x k * U' k) n n =
          (∑ m, (occ (e t k n / s.kT) : ℂ) * band s (U t) x k n m * ((U t k)ᴴ * U' k) m n) -
            ∑ m, (occ (e t k n / s.kT) : ℂ) * band s (U t) x k m n * ((U t k)ᴴ * U' k) n m := by
        intro n
        rw [band_change h, Finset.mul_sum, ← Finset.sum_sub_distrib]
        refine Finset.sum_congr rfl fun m _ => ?_
        ring
      rw [Finset.sum_congr rfl fun n _ => h3 n, Finset.sum_sub_distrib, Finset.sum_comm, ← Finset.sum_sub_distrib]
      refine Finset.sum_congr rfl fun m _ => ?_
      rw [← Finset.sum_sub_distrib]
      refine Finset.sum_congr rfl fun n _ => ?_
      push_cast
      ring
    rw [h2]
    rw [Finset.mul_sum]
    have h5 : ∑ n, ((-(d k n * e' k n) : ℝ) : ℂ) * band s (U t) x k n n =
        (∑ n, -((d k n * (e' k n + mu') : ℝ) : ℂ) * band s (U t) x k n n) +
          ∑ n, (mu' : ℂ) * ((d k n : ℂ) * band s (U t) x k n n) := by
      rw [← Finset.sum_add_distrib]
      refine Finset.sum_congr rfl fun n _ => ?_
      push_cast
      ring
    rw [h5]
    ring
  rw [helec] at hF
  have hre := Complex.reCLM.hasFDerivAt.comp_hasDerivAt t hF
  have hlat : HasDerivAt (fun τ => ∑ y, (s.C0 0 x y).re * u τ y) (∑ y, (s.C0 0 x y).re * u' y) t :=
    HasDerivAt.fun_sum fun y _ => (h.du y).const_mul _
  have hsum := (hre.add hlat).add_const (s.F0 x)
  refine hsum.congr_deriv ?_
  rw [Complex.reCLM_apply, Complex.re_sum, ← Finset.sum_add_distrib]
  refine Finset.sum_congr rfl fun y _ => ?_
  unfold Driver.hessianGamma Driver.hessian
  rw [Complex.re_mul_ofReal, Complex.add_re, add_mul]
  rfl

end path

/-- C89: if acoustic sum rules hold for force constants and coupling, the forces sum to zero. -/
theorem C89_sum (occ : ℝ → ℝ) (s : Driver n1 n2 n3 nb nat nq) (hC : ∀ x y, ∑ na, (s.C0 0 (na, x) y).re = 0)
    (hd : ∀ x k, ∑ na, s.d0 0 (na, x) k = 0) (hF : ∀ x, ∑ na, s.F0 (na, x) = 0) (x : Fin 3) :
    ∑ na, s.jacobian occ (na, x) = 0 := by
  unfold Driver.jacobian
  rw [Finset.sum_add_distrib, Finset.sum_add_distrib, hF, add_zero]
  have h1 : ∑ na, ∑ y, (s.C0 0 (na, x) y).re * s.u y = 0 := by
    rw [Finset.sum_comm]
    refine Finset.sum_eq_zero fun y _ => ?_
    rw [← Finset.sum_mul, hC, zero_mul]
  rw [h1, add_zero, ← Complex.re_sum]
  have h2 : ∑ na, firstOrderU s.kT occ s.e s.U (s.d0 0 (na, x)) = 0 := by
    unfold firstOrderU
    rw [← Finset.mul_sum, Finset.sum_comm]
    refine mul_eq_zero_of_right _ (Finset.sum_eq_zero fun k _ => ?_)
    rw [Finset.sum_comm]
    refine Finset.sum_eq_zero fun a _ => ?_
    rw [Finset.sum_comm]
    refine Finset.sum_eq_zero fun b _ => ?_
    rw [← Finset.mul_sum]
    have := congrFun (congrFun (hd x k) b) a
    rw [Matrix.sum_apply, Matrix.zero_apply] at this
    rw [this, mul_zero]
  rw [h2, Complex.zero_re]

theorem center_hasDerivAt {v : ℝ → X nat → ℝ} {v' : X nat → ℝ} {t : ℝ} (h : ∀ x, HasDerivAt (fun t => v t x) (v' x) t)
    (x : X nat) : HasDerivAt (fun t => center (v t) x) (center v' x) t := by
  unfold center
  exact (h x).sub ((HasDerivAt.fun_sum fun na _ => h (na, x.2)).div_const _)

/-- C89: the forces are the derivative of the free energy with respect to the displacements given (before removing the
collective displacement), provided that they sum to zero. -/
theorem C89_given [NeZero n1] [NeZero n2] [NeZero n3] {occ : ℝ → ℝ} {s : Driver n1 n2 n3 nb nat nq} {v : ℝ → X nat → ℝ}
    {e : ℝ → Mesh n1 n2 n3 → Fin nb → ℝ} {U : ℝ → Mesh n1 n2 n3 → Matrix (Fin nb) (Fin nb) ℂ} {mu : ℝ → ℝ} {t : ℝ}
    {v' : X nat → ℝ} {e' : Mesh n1 n2 n3 → Fin nb → ℝ} {U' : Mesh n1 n2 n3 → Matrix (Fin nb) (Fin nb) ℂ} {mu' : ℝ}
    (h : Path occ s (fun t => center (v t)) e U mu t (center v') e' U' mu') (delta entropy : ℝ → ℝ) (hkT : s.kT ≠ 0)
    (ho : ∀ k n, HasDerivAt occ (-delta (e t k n / s.kT)) (e t k n / s.kT))
    (hs : ∀ k n, HasDerivAt entropy (-(e t k n / s.kT) * delta (e t k n / s.kT)) (e t k n / s.kT))
    (hC : ∀ x y, (s.C0 0 x y).re = (s.C0 0 y x).re) (hC0 : ∀ x y, ∑ na, (s.C0 0 (na, x) y).re = 0)
    (hd : ∀ x k, ∑ na, s.d0 0 (na, x) k = 0) (hF : ∀ x, ∑ na, s.F0 (na, x) = 0) :
    HasDerivAt (fun τ => (s.move (center (v τ)) (e τ) (U τ) (mu τ)).freeEnergy occ entropy)
      (∑ x, (s.move (center (v t)) (e t) (U t) (mu t)).jacobian occ x * v' x) t := by
  refine (C89_gradient h delta entropy hkT ho hs hC).congr_deriv ?_
  have h0 := C89_sum occ (s.move (center (v t)) (e t) (U t) (mu t)) hC0 hd hF
  set J := (s.move (center (v t)) (e t) (U t) (mu t)).jacobian occ with hJ
  have h1 : ∀ x, J x * center v' x = J x * v' x - J x * ((∑ na, v' (na, x.2)) / nat) := by
    intro x
    unfold center
    ring
  rw [Finset.sum_congr rfl fun x _ => h1 x, Finset.sum_sub_distrib, sub_eq_self, Fintype.sum_prod_type, Finset.sum_comm]
  refine Finset.sum_eq_zero fun y _ => ?_
  simp only
  rw [← Finset.sum_mul, h0, zero_mul]

/-- C89: collective displacements have no influence. -/
theorem C89_translation (eigh : Matrix (Fin nb) (Fin nb) ℂ → (Fin nb → ℝ) × Matrix (Fin nb) (Fin nb) ℂ)
    (level : (Mesh n1 n2 n3 → Fin nb → ℝ) → ℝ) (s : Driver n1 n2 n3 nb nat nq) (v : Fin 3 → ℝ) :
    ({ s with u := fun i => s.u i + v i.2 } : Driver n1 n2 n3 nb nat nq).diagonalize eigh level =
      s.diagonalize eigh level := by
  unfold Driver.diagonalize
  simp only [C56_translation]

/-! ### Sparse matrices -/

theorem contract (A U c : Matrix (Fin nb) (Fin nb) ℝ) :
    ∑ a, ∑ b, A a b * (U * c * U.transpose) a b = ∑ m, ∑ n, c m n * (U.transpose * (A * U)) m n := by
  simp only [Matrix.mul_apply, Matrix.transpose_apply, Finset.mul_sum, Finset.sum_mul]
  have h : ∀ F : Fin nb → Fin nb → Fin nb → Fin nb → ℝ, ∑ a, ∑ b, ∑ n, ∑ m, F a b n m = ∑ m, ∑ n, ∑ a, ∑ b, F a b n m := by
    intro F
    calc ∑ a, ∑ b, ∑ n, ∑ m, F a b n m = ∑ a, ∑ n, ∑ b, ∑ m, F a b n m :=
          Finset.sum_congr rfl fun a _ => Finset.sum_comm
      _ = ∑ a, ∑ n, ∑ m, ∑ b, F a b n m :=
          Finset.sum_congr rfl fun a _ => Finset.sum_congr rfl fun n _ => Finset.sum_comm
      _ = ∑ n, ∑ a, ∑ m, ∑ b, F a b n m := Finset.sum_comm
      _ = ∑ n, ∑ m, ∑ a, ∑ b, F a b n m := Finset.sum_congr rfl fun n _ => Finset.sum_comm
      _ = _ := Finset.sum_comm
  rw [h]
  refine Finset.sum_congr rfl fun m _ => Finset.sum_congr rfl fun n _ => Finset.sum_congr rfl fun a _ =>
    Finset.sum_congr rfl fun b _ => ?_
  ring

/-- The same system with dense matrices. -/
noncomputable def Sparse.dense (s : Sparse nb nat) (n mu : ℝ) : Driver 1 1 1 nb nat 0 where
  kT := s.kT
  n := n
  q := fun _ _ => 0
  H0 := fun _ => s.H0.map Complex.ofReal
  C0 := fun _ x y => (s.C0 x y : ℂ)
  d0 := fun _ x _ => (s.d0 x).map Complex.ofReal
  F0 := s.F0
  u := s.u
  e := fun _ => s.e
  U := fun _ => s.U.map Complex.ofReal
  mu := mu

theorem dense_band (s : Sparse nb nat) (n mu : ℝ) (x : X nat) (k : Mesh 1 1 1) (a b : Fin nb) :
    band (s.dense n mu) (s.dense n mu).U x k a b = (((s.U.transpose * (s.d0 x * s.U)) a b : ℝ) : ℂ) := by
  unfold band Sparse.dense
  simp only
  have h : (s.U.map Complex.ofReal)ᴴ = s.U.transpose.map Complex.ofReal := by
    ext i j
    simp
  rw [h, ← Matrix.mul_assoc]
  have h2 : ∀ A B : Matrix (Fin nb) (Fin nb) ℝ, A.map Complex.ofReal * B.map Complex.ofReal = (A * B).map Complex.ofReal := by
    intro A B
    ext i j
    simp [Matrix.mul_apply]
  rw [h2, h2]
  rfl

/-- C55: sparse and dense calculations yield the same forces. -/
theorem C55_sparse_jacobian (occ : ℝ → ℝ) (s : Sparse nb nat) (n mu : ℝ) (x : X nat) :
    s.jacobian occ x = (s.dense n mu).jacobian occ x := by
  unfold Driver.jacobian
  have h : firstOrderU (s.dense n mu).kT occ (s.dense n mu).e (s.dense n mu).U ((s.dense n mu).d0 0 x) =
      ((2 * ∑ a, ∑ b, s.d0 x a b * (Matrix.of (fun a n => s.U a n * occ (s.e n / s.kT)) * s.U.transpose) a b : ℝ) : ℂ) := by
    rw [firstOrderU_eq]
    have h1 : (Matrix.of (fun a n => s.U a n * occ (s.e n / s.kT)) * s.U.transpose) =
        s.U * diagonal (fun n => occ (s.e n / s.kT)) * s.U.transpose := by
      congr 1
      ext a n
      rw [Matrix.mul_diagonal]
      rfl
    rw [h1, contract]
    simp only [Fintype.sum_prod_type, Finset.univ_unique, Finset.sum_singleton]
    push_cast
    norm_num
    refine Finset.sum_congr rfl fun m _ => ?_
    rw [Finset.sum_eq_single m]
    · rw [Matrix.diagonal_apply_eq]
      congr 1
      exact dense_band s n mu x default m m
    · intro b _ hb
      rw [Matrix.diagonal_apply_ne _ hb.symm]
      simp
    · simp
  rw [h, Complex.ofReal_re]
  unfold Sparse.jacobian
  simp only [Sparse.dense, Complex.ofReal_re]

/-- C55: sparse and dense calculations yield the same electronic part of the Hessian if the density of states is not
negative. -/
theorem C55_sparse_hessian (eps : ℝ) (occ delta : ℝ → ℝ) (s : Sparse nb nat) (n mu : ℝ) (hkT : s.kT ≠ 0)
    (hdos : 0 < ∑ n, delta (s.e n / s.kT) / s.kT) (x y : X nat) :
    s.hessianUpper eps occ delta x y = ((s.dense n mu).electronic eps occ delta 0 x y).re := by
  have hd0 : (s.dense n mu).d 0 = band (s.dense n mu) (s.dense n mu).U := by
    funext x k
    exact d_zero (s.dense n mu) rfl x k
  unfold Driver.electronic
  rw [hd0, if_pos rfl]
  unfold selfEnergy contact piK fermiShift
  simp only [Complex.ofReal_zero, zero_div, mul_zero, zero_mul, Finset.sum_const_zero, add_zero, Bool.false_eq_true,
    false_and, if_false]
  simp only [show (s.dense n mu).q 0 = fun _ => 0 from rfl, weights_zero, dense_band]
  simp only [Fintype.sum_prod_type, Finset.univ_unique, Finset.sum_singleton]
  simp only [show (s.dense n mu).e = fun _ => s.e from rfl, show (s.dense n mu).kT = s.kT from rfl]
  set gx : Fin nb → Fin nb → ℝ := fun m n => (s.U.transpose * (s.d0 x * s.U)) m n with hgx
  set gy : Fin nb → Fin nb → ℝ := fun m n => (s.U.transpose * (s.d0 y * s.U)) m n with hgy
  set d : Fin nb → ℝ := fun n => delta (s.e n / s.kT) / s.kT with hd
  set w : Fin nb → Fin nb → ℝ := fun m n => if |s.e n - s.e m| > eps then
    (occ (s.e n / s.kT) - occ (s.e m / s.kT)) / (s.e n - s.e m) else delta (s.e n / s.kT) / -s.kT with hw
  have hR : ((2 * (∑ m, ∑ n, gx m n * gy m n * w m n) + 2 * (∑ n, d n) * ((∑ n, d n * gx n n) / (∑ n, d n) *
      ((∑ n, d n * gy n n) / (∑ n, d n))) : ℝ) : ℂ).re = s.hessianUpper eps occ delta x y := by
    rw [Complex.ofReal_re]
    unfold Sparse.hessianUpper
    simp only
    have h1 : ∀ z : X nat, ∑ a, ∑ b, s.d0 z a b *
        (Matrix.of (fun a n => s.U a n * (2 * delta (s.e n / s.kT) / -s.kT)) * s.U.transpose) a b =
        -2 * ∑ n, d n * (s.U.transpose * (s.d0 z * s.U)) n n := by
      intro z
      have h1 : (Matrix.of (fun a n => s.U a n * (2 * delta (s.e n / s.kT) / -s.kT)) * s.U.transpose) =
          s.U * diagonal (fun n => 2 * delta (s.e n / s.kT) / -s.kT) * s.U.transpose := by
        congr 1
        ext a n
        rw [Matrix.mul_diagonal]
        rfl
      rw [h1, contract, Finset.mul_sum]
      refine Finset.sum_congr rfl fun m _ => ?_
      rw [Finset.sum_eq_single m]
      · rw [Matrix.diagonal_apply_eq, hd]
        simp only
        field_simp
      · intro b _ hb
        rw [Matrix.diagonal_apply_ne _ hb.symm, zero_mul]
      · simp
    rw [h1, h1, contract]
    have h2 : -∑ n, 2 * delta (s.e n / s.kT) / -s.kT = 2 * ∑ n, d n := by
      rw [← Finset.sum_neg_distrib, Finset.mul_sum]
      refine Finset.sum_congr rfl fun n _ => ?_
      rw [hd]
      simp only
      field_simp
    rw [h2]
    have h3 : 0 < ∑ n, d n := hdos
    have h4 : Real.sqrt (2 * ∑ n, d n) * Real.sqrt (2 * ∑ n, d n) = 2 * ∑ n, d n :=
      Real.mul_self_sqrt (by positivity)
    have h6 : ∀ a b : ℝ, a / Real.sqrt (2 * ∑ n, d n) * (b / Real.sqrt (2 * ∑ n, d n)) = a * b / (2 * ∑ n, d n) := by
      intro a b
      rw [div_mul_div_comm, h4]
    rw [h6]
    congr 1
    · rw [Finset.mul_sum]
      refine Finset.sum_congr rfl fun m _ => ?_
      rw [Finset.mul_sum]
      refine Finset.sum_congr rfl fun n _ => ?_
      rw [Matrix.of_apply, hw, hgx, hgy]
      simp only
      rw [abs_sub_comm]
      split
      · rw [← neg_sub (s.e n) (s.e m), div_neg]
        ring
      · ring
    · have h5 : (∑ n, d n) ≠ 0 := h3.ne'
      rw [hgx, hgy]
      simp only
      field_simp
  rw [← hR]
  congr 1
  push_cast
  simp only [star_real]
  norm_num [hgx, hgy, hw, hd]


/-- Positive density of states for one level at the chemical potential. -/
example : 0 < ∑ n : Fin 1, Verif.Occ.gaussDelta ((fun _ => 0 : Fin 1 → ℝ) n / 2) / 2 := by
  rw [Fin.sum_univ_one]
  exact div_pos (Verif.Occ.gaussDelta_pos _) two_pos

section sample

/-- Two atoms and two orbitals; the energy of the first orbital depends on the first displacement. -/
noncomputable def sample : Driver 1 1 1 2 2 0 where
  kT := 1
  n := 2
  q := fun _ _ => 0
  H0 := fun _ => 0
  C0 := fun _ x y => if x = y then 1 else 0
  d0 := fun _ x _ => if x = (0, 0) then diagonal ![2, 0] else 0
  F0 := fun _ => 0
  u := fun _ => 0
  e := fun _ _ => 0
  U := fun _ => 1
  mu := 0

/-- Displacement of the atoms in opposite directions. -/
noncomputable def sampleU (t : ℝ) (x : X 2) : ℝ := if x = (0, 0) then t else if x = (1, 0) then -t else 0

theorem sample_path : Path Verif.Occ.gauss sample sampleU (fun t _ n => if n = 0 then t else -t) (fun _ _ => 1) (fun t => t)
    1 (sampleU 1) (fun _ n => if n = 0 then 1 else -1) (fun _ => 0) 1 where
  diag := fun t => by
    refine ⟨fun k => ?_, fun k => ?_, ?_⟩
    · have : (sample.move (sampleU t) (fun _ n => if n = 0 then t else -t) (fun _ => 1) t).H k = diagonal ![2 * (t : ℂ), 0] := by
        unfold Driver.H Driver.move sample sampleU
        simp only [zero_add]
        rw [Finset.sum_eq_single (0, 0)]
        · simp only [if_true]
          rw [← diagonal_smul]
          congr 1
          funext i
          fin_cases i <;> simp [mul_comm]
        · intro b _ hb
          rw [if_neg hb]
          simp only [if_neg hb, smul_zero]
        · simp
      rw [this]
      simp only [Driver.move, Matrix.mul_one, Matrix.one_mul]
      congr 1
      funext i
      fin_cases i <;> simp [two_mul]
    · simp [Driver.move]
    · have h := Verif.Occ.C35_gauss.symm t
      simp only [Driver.move, sample, div_one, Fin.sum_univ_two, Fintype.sum_prod_type, Finset.univ_unique, Finset.sum_singleton,
        if_true, one_ne_zero, if_false]
      rw [h]
      norm_num
  du := fun x => by
    unfold sampleU
    split
    · exact hasDerivAt_id 1
    · split
      · exact (hasDerivAt_id 1).neg
      · exact hasDerivAt_const _ _
  de := fun k n => by
    split
    · exact hasDerivAt_id 1
    · exact (hasDerivAt_id 1).neg
  dU := fun k a n => hasDerivAt_const _ _
  dmu := hasDerivAt_id 1

/-- The hypotheses of the theorems for this path. -/
theorem sample_hypotheses : (∀ x k, (sample.d0 0 x k)ᴴ = sample.d0 0 x k) ∧ sample.kT ≠ 0 ∧ (sample.q 0 = fun _ => 0) ∧
    (∀ x y, (sample.C0 0 x y).re = (sample.C0 0 y x).re) ∧
    (∀ (m n : Fin 2), (if m = 0 then (1 : ℝ) else -1) ≠ (if n = 0 then 1 else -1) →
      1e-10 < |(if m = 0 then (1 : ℝ) else -1) - (if n = 0 then 1 else -1)|) := by
  refine ⟨fun x k => ?_, by simp [sample], rfl, fun x y => ?_, fun m n => ?_⟩
  · simp only [sample]
    split
    · rw [diagonal_conjTranspose]
      congr 1
      funext i
      fin_cases i <;> simp
    · simp
  · simp only [sample, eq_comm (a := x)]
  · fin_cases m <;> fin_cases n <;> norm_num

example := C89_gradient sample_path Verif.Occ.gaussDelta Verif.Occ.gaussEntropy sample_hypotheses.2.1
  (fun _ _ => (Verif.Occ.C36_gauss _).1) (fun _ _ => Verif.Occ.C37_gauss _) sample_hypotheses.2.2.2.1

example := C89_hessian sample_path 1e-10 (by norm_num) Verif.Occ.gaussDelta sample_hypotheses.2.1
  (fun _ _ => (Verif.Occ.C36_gauss _).1) sample_hypotheses.2.2.1 sample_hypotheses.1 (fun _ m n => sample_hypotheses.2.2.2.2 m n)
  (ne_of_gt (Finset.sum_pos (fun _ _ => Finset.sum_pos (fun _ _ => Verif.Occ.gaussDelta_pos _) ⟨0, Finset.mem_univ 0⟩)
    ⟨0, Finset.mem_univ 0⟩)) (0, 0)

/-- Two atoms with opposite coupling, connected by springs. -/
noncomputable def springs : Driver 1 1 1 2 2 0 :=
  { sample with
    C0 := fun _ x y => if x.2 = y.2 then (if x.1 = y.1 then 1 else -1) else 0
    d0 := fun _ x _ => if x.2 = 0 then (if x.1 = 0 then diagonal ![1, 0] else diagonal ![-1, 0]) else 0 }

theorem springs_rigid : (∀ x y, ∑ na, (springs.C0 0 (na, x) y).re = 0) ∧ (∀ x k, ∑ na, springs.d0 0 (na, x) k = 0) ∧
    ∀ x, ∑ na, springs.F0 (na, x) = 0 := by
  refine ⟨fun x y => ?_, fun x k => ?_, fun x => ?_⟩
  · obtain ⟨a, y⟩ := y
    simp only [springs, Fin.sum_univ_two]
    by_cases h : x = y
    · rw [if_pos h, if_pos h]
      fin_cases a <;> simp
    · rw [if_neg h, if_neg h]
      simp
  · simp only [springs, Fin.sum_univ_two]
    by_cases h : x = 0
    · simp only [if_pos h, if_true, one_ne_zero, if_false]
      rw [diagonal_add]
      ext i j
      fin_cases i <;> fin_cases j <;> simp
    · simp [h]
  · simp [springs, sample]

example := C89_sum Verif.Occ.gauss springs springs_rigid.1 springs_rigid.2.1 springs_rigid.2.2 0

theorem springs_path : Path Verif.Occ.gauss springs (fun t => center (sampleU t)) (fun t _ n => if n = 0 then t else -t) (fun _ _ => 1)
    (fun t => t) 1 (center (sampleU 1)) (fun _ n => if n = 0 then 1 else -1) (fun _ => 0) 1 where
  diag := fun t => by
    have hc : center (sampleU t) = sampleU t := by
      funext x
      obtain ⟨a, x⟩ := x
      unfold center sampleU
      rw [Fin.sum_univ_two]
      fin_cases a <;> fin_cases x <;> simp
    refine ⟨fun k => ?_, fun k => ?_, ?_⟩
    · have : (springs.move (sampleU t) (fun _ n => if n = 0 then t else -t) (fun _ => 1) t).H k = diagonal ![2 * (t : ℂ), 0] := by
        unfold Driver.H Driver.move springs sample sampleU
        simp only [zero_add, Fintype.sum_prod_type, Fin.sum_univ_two, Fin.sum_univ_three]
        ext i j
        fin_cases i <;> fin_cases j <;> simp [two_mul]
      rw [hc, this]
      simp only [Driver.move, Matrix.mul_one, Matrix.one_mul]
      congr 1
      funext i
      fin_cases i <;> simp [two_mul]
    · simp [Driver.move]
    · have h := Verif.Occ.C35_gauss.symm t
      simp only [Driver.move, springs, sample, div_one, Fin.sum_univ_two, Fintype.sum_prod_type, Finset.univ_unique,
        Finset.sum_singleton, if_true, one_ne_zero, if_false]
      rw [h]
      norm_num
  du := fun x => by
    have hc : ∀ t, center (sampleU t) = sampleU t := by
      intro t
      funext x
      obtain ⟨a, x⟩ := x
      unfold center sampleU
      rw [Fin.sum_univ_two]
      fin_cases a <;> fin_cases x <;> simp
    simp only [hc]
    exact sample_path.du x
  de := sample_path.de
  dU := sample_path.dU
  dmu := sample_path.dmu

example := C89_given springs_path Verif.Occ.gaussDelta Verif.Occ.gaussEntropy sample_hypotheses.2.1
  (fun _ _ => (Verif.Occ.C36_gauss _).1) (fun _ _ => Verif.Occ.C37_gauss _) (fun x y => by
    simp only [springs, eq_comm (a := x.1), eq_comm (a := x.2)]) springs_rigid.1 springs_rigid.2.1 springs_rigid.2.2

end sample

end Verif.MD
