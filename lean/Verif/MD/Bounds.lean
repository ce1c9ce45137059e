import Mathlib.Topology.Order.Compact
import Mathlib.Topology.MetricSpace.ProperSpace
import Mathlib.Analysis.Normed.Group.Constructions
import Mathlib.Topology.Algebra.InfiniteSum.Real
import Mathlib.Analysis.SpecificLimits.Basic
import Verif.MD.Optimize

/-!
# Bounds of the free energy and structural relaxation (C182)

In `elphmod/md.py`, electrons see a Hamiltonian linear in the displacements and atoms are connected by unscreened springs `C0`. Thus the free
energy can never exceed any of its tangents by more than the energy of the springs. As electronic forces are bounded, springs win for large
displacements. The model is that of `MD/Model.lean`, with functions `E` (`free_energy`), `G` (`jacobian`), and `H` (`hessian`) of the displacements
as specified in `MD/Optimize.lean` (see C167 for the relation to calls of the methods).
-/

namespace Verif.MD.Bounds

open Verif.Diag
open Verif.MD.Optimize
open Matrix

variable {n1 n2 n3 nb nat nq : Nat}

/-- Specification: twice the energy of the springs. -/
noncomputable def form (C : X nat → X nat → ℂ) (u : X nat → ℝ) : ℝ := ∑ x, ∑ y, u x * (C x y).re * u y

variable [NeZero n1] [NeZero n2] [NeZero n3] {occ delta entropy : ℝ → ℝ} {s : Driver n1 n2 n3 nb nat nq}

theorem freeEnergy_eq (hkT : s.kT ≠ 0) (u : X nat → ℝ) (e : Mesh n1 n2 n3 → Fin nb → ℝ) (U : Mesh n1 n2 n3 → Matrix (Fin nb) (Fin nb) ℂ) (mu : ℝ) :
    (s.move u e U mu).freeEnergy occ entropy =
      grandPotential s.kT occ entropy e + mu * s.n + 0.5 * form (s.C0 0) u + ∑ x, s.F0 x * u x := by
  have h1 : grandPotential s.kT occ entropy e = 2 / (n1 * n2 * n3 : Nat) * (∑ k, ∑ n, occ (e k n / s.kT) * e k n) -
      2 / (n1 * n2 * n3 : Nat) * s.kT * (∑ k, ∑ n, entropy (e k n / s.kT)) := by
    unfold grandPotential
    have : ∑ k, ∑ n, occ (e k n / s.kT) * (e k n / s.kT) = (∑ k, ∑ n, occ (e k n / s.kT) * e k n) / s.kT := by
      simp only [Finset.sum_div, mul_div_assoc]
    rw [this]
    field_simp
  rw [h1]
  unfold Driver.freeEnergy Driver.move form
  ring

/-- The electronic part lies below its tangents, whatever the chemical potential of the other structure. -/
theorem electronic_tangent (hkT : 0 < s.kT) (h1 : ∀ x, HasDerivAt occ (-delta x) x) (h3 : ∀ x, HasDerivAt entropy (-x * delta x) x)
    (ha : Antitone occ) {u v : X nat → ℝ} {e e' : Mesh n1 n2 n3 → Fin nb → ℝ} {U U' : Mesh n1 n2 n3 → Matrix (Fin nb) (Fin nb) ℂ} {mu mu' : ℝ}
    (hA : Diagonalized occ (s.move u e U mu)) (hB : Diagonalized occ (s.move v e' U' mu')) :
    grandPotential s.kT occ entropy e' + mu' * s.n ≤ grandPotential s.kT occ entropy e + mu * s.n +
      ∑ x, (firstOrderU s.kT occ e U (s.d0 0 x)).re * (v x - u x) := by
  have uA : ∀ k, (U k)ᴴ * U k = 1 := hA.unitary
  have uB : ∀ k, (U' k)ᴴ * U' k = 1 := hB.unitary
  have uA' : ∀ k, U k * (U k)ᴴ = 1 := fun k => mul_eq_one_comm.1 (uA k)
  have uB' : ∀ k, U' k * (U' k)ᴴ = 1 := fun k => mul_eq_one_comm.1 (uB k)
  set W : Mesh n1 n2 n3 → Matrix (Fin nb) (Fin nb) ℂ := fun k =>
    ∑ x, ((v x - u x : ℝ) : ℂ) • s.d0 0 x k - ((mu' - mu : ℝ) : ℂ) • 1 with hW
  set S : Mesh n1 n2 n3 → Matrix (Fin nb) (Fin nb) ℂ := fun k => (U k)ᴴ * U' k with hS
  have sA : ∀ k, S k * (S k)ᴴ = 1 := by
    intro k
    rw [hS]
    show (U k)ᴴ * U' k * ((U k)ᴴ * U' k)ᴴ = 1
    rw [conjTranspose_mul, conjTranspose_conjTranspose, Matrix.mul_assoc, ← Matrix.mul_assoc (U' k), uB', Matrix.one_mul, uA]
  have sB : ∀ k, (S k)ᴴ * S k = 1 := fun k => mul_eq_one_comm.1 (sA k)
  have hdiff : ∀ k, (s.move v e' U' mu').H k - ((mu' : ℝ) : ℂ) • 1 = ((s.move u e U mu).H k - ((mu : ℝ) : ℂ) • 1) + W k := by
    intro k
    have : ∑ x, ((v x - u x : ℝ) : ℂ) • s.d0 0 x k = ∑ x, ((v x : ℝ) : ℂ) • s.d0 0 x k - ∑ x, ((u x : ℝ) : ℂ) • s.d0 0 x k := by
      rw [← Finset.sum_sub_distrib]
      refine Finset.sum_congr rfl fun x _ => ?_
      rw [Complex.ofReal_sub, sub_smul]
    rw [hW]
    dsimp only
    rw [this, Complex.ofReal_sub, sub_smul]
    unfold Driver.H Driver.move
    dsimp only
    abel
  have eigA : ∀ k, ((s.move u e U mu).H k - ((mu : ℝ) : ℂ) • 1) * U k = U k * diagonal fun n => (e k n : ℂ) := by
    intro k
    have h : (s.move u e U mu).H k * U k = U k * diagonal fun n => ((e k n + mu : ℝ) : ℂ) := hA.eig k
    rw [Matrix.sub_mul, h, Matrix.smul_mul, Matrix.one_mul]
    ext i j
    rw [Matrix.sub_apply, Matrix.mul_diagonal, Matrix.mul_diagonal, Matrix.smul_apply, smul_eq_mul]
    push_cast
    ring
  have eigB : ∀ k, ((s.move v e' U' mu').H k - ((mu' : ℝ) : ℂ) • 1) * U' k = U' k * diagonal fun n => (e' k n : ℂ) := by
    intro k
    have h : (s.move v e' U' mu').H k * U' k = U' k * diagonal fun n => ((e' k n + mu' : ℝ) : ℂ) := hB.eig k
    rw [Matrix.sub_mul, h, Matrix.smul_mul, Matrix.one_mul]
    ext i j
    rw [Matrix.sub_apply, Matrix.mul_diagonal, Matrix.mul_diagonal, Matrix.smul_apply, smul_eq_mul]
    push_cast
    ring
  have hV : ∀ k, (diagonal fun n => (e k n : ℂ)) + (U k)ᴴ * W k * U k = S k * (diagonal fun n => (e' k n : ℂ)) * (S k)ᴴ := by
    intro k
    have a1 : (U k)ᴴ * (((s.move u e U mu).H k - ((mu : ℝ) : ℂ) • 1) * U k) = diagonal fun n => (e k n : ℂ) := by
      rw [eigA, ← Matrix.mul_assoc, uA, Matrix.one_mul]
    have a2 : ((s.move v e' U' mu').H k - ((mu' : ℝ) : ℂ) • 1) = U' k * (diagonal fun n => (e' k n : ℂ)) * (U' k)ᴴ := by
      rw [← eigB, Matrix.mul_assoc, uB', Matrix.mul_one]
    have a3 : W k = U' k * (diagonal fun n => (e' k n : ℂ)) * (U' k)ᴴ - ((s.move u e U mu).H k - ((mu : ℝ) : ℂ) • 1) := by
      rw [← a2, hdiff]
      abel
    rw [a3, Matrix.mul_sub, Matrix.sub_mul, Matrix.mul_assoc (U k)ᴴ ((s.move u e U mu).H k - ((mu : ℝ) : ℂ) • 1), a1, add_sub_cancel, hS]
    dsimp only
    rw [conjTranspose_mul, conjTranspose_conjTranspose]
    simp only [Matrix.mul_assoc]
  have key := C81_variational s.kT hkT occ delta entropy h1 h3 ha e e' (fun k => S k) (fun k => (U k)ᴴ * W k * U k)
    (fun k a b => by
      have := congrFun (congrFun (sA k) a) b
      rw [Matrix.mul_apply, Matrix.one_apply] at this
      exact this)
    (fun k a b => by
      have := congrFun (congrFun (sB k) a) b
      rw [Matrix.mul_apply, Matrix.one_apply] at this
      exact this)
    (fun k a b => by
      have := congrFun (congrFun (hV k) a) b
      rw [Matrix.mul_apply, Matrix.add_apply, Matrix.diagonal_apply] at this
      simp only [Matrix.mul_diagonal] at this
      exact this)
  have hnum : 2 / ((n1 * n2 * n3 : Nat) : ℝ) * (∑ k, ∑ n, occ (e k n / s.kT)) = s.n := hA.number
  have hnumC : 2 / ((n1 * n2 * n3 : Nat) : ℂ) * (∑ k, ∑ n, (occ (e k n / s.kT) : ℂ)) = (s.n : ℂ) := by
    rw [← hnum]
    push_cast
    rfl
  have hfirst : firstOrder s.kT occ e (fun k => (U k)ᴴ * W k * U k) =
      ∑ x, ((v x - u x : ℝ) : ℂ) * firstOrderU s.kT occ e U (s.d0 0 x) - ((mu' - mu : ℝ) : ℂ) * (s.n : ℂ) := by
    have hd : ∀ k n, ((U k)ᴴ * W k * U k) n n = ∑ x, ((v x - u x : ℝ) : ℂ) * ((U k)ᴴ * s.d0 0 x k * U k) n n - ((mu' - mu : ℝ) : ℂ) := by
      intro k n
      rw [hW]
      dsimp only
      rw [Matrix.mul_sub, Matrix.sub_mul, Matrix.mul_sum, Matrix.sum_mul, Matrix.sub_apply, Matrix.sum_apply, Matrix.mul_smul, Matrix.smul_mul,
        Matrix.mul_one, uA, Matrix.smul_apply, Matrix.one_apply_eq, smul_eq_mul, mul_one]
      refine congrArg₂ (· - ·) (Finset.sum_congr rfl fun x _ => ?_) rfl
      rw [Matrix.mul_smul, Matrix.smul_mul, Matrix.smul_apply, smul_eq_mul]
    unfold firstOrder
    simp only [hd]
    rw [← hnumC]
    simp only [mul_sub, Finset.sum_sub_distrib, Finset.mul_sum]
    refine congrArg₂ (· - ·) ?_ ?_
    · have : ∀ f : Mesh n1 n2 n3 → Fin nb → X nat → ℂ, ∑ k, ∑ n, ∑ x, f k n x = ∑ x, ∑ k, ∑ n, f k n x := by
        intro f
        calc ∑ k, ∑ n, ∑ x, f k n x = ∑ k, ∑ x, ∑ n, f k n x := Finset.sum_congr rfl fun k _ => Finset.sum_comm
          _ = ∑ x, ∑ k, ∑ n, f k n x := Finset.sum_comm
      rw [this]
      refine Finset.sum_congr rfl fun x _ => Eq.trans ?_ (congrArg _ (firstOrderU_eq s.kT occ e U (s.d0 0 x)).symm)
      simp only [Finset.mul_sum]
      refine Finset.sum_congr rfl fun k _ => Finset.sum_congr rfl fun n _ => ?_
      ring
    · refine Finset.sum_congr rfl fun k _ => Finset.sum_congr rfl fun n _ => ?_
      ring
  rw [hfirst, Complex.sub_re, Complex.re_sum, ← Complex.ofReal_mul, Complex.ofReal_re] at key
  simp only [Complex.re_ofReal_mul] at key
  have hc : ∑ x, (v x - u x) * (firstOrderU s.kT occ e U (s.d0 0 x)).re = ∑ x, (firstOrderU s.kT occ e U (s.d0 0 x)).re * (v x - u x) :=
    Finset.sum_congr rfl fun x _ => mul_comm _ _
  rw [hc] at key
  linarith

/-! ### Springs -/

theorem form_expand (C : X nat → X nat → ℂ) (hC : ∀ x y, (C x y).re = (C y x).re) (u v : X nat → ℝ) :
    form C v = form C u + 2 * ∑ x, (∑ y, (C x y).re * u y) * (v x - u x) + form C fun x => v x - u x := by
  have hs : ∑ x, ∑ y, u x * (C x y).re * v y = ∑ x, ∑ y, v x * (C x y).re * u y := by
    rw [Finset.sum_comm]
    refine Finset.sum_congr rfl fun x _ => Finset.sum_congr rfl fun y _ => ?_
    rw [hC y x]
    ring
  have h1 : ∑ x, (∑ y, (C x y).re * u y) * (v x - u x) = ∑ x, ∑ y, v x * (C x y).re * u y - form C u := by
    unfold form
    rw [← Finset.sum_sub_distrib]
    refine Finset.sum_congr rfl fun x _ => ?_
    rw [Finset.sum_mul, ← Finset.sum_sub_distrib]
    exact Finset.sum_congr rfl fun y _ => by ring
  have h2 : (form C fun x => v x - u x) = form C v - 2 * ∑ x, ∑ y, v x * (C x y).re * u y + form C u := by
    have : (form C fun x => v x - u x) = ∑ x, ∑ y, (v x * (C x y).re * v y) - ∑ x, ∑ y, u x * (C x y).re * v y -
        ∑ x, ∑ y, v x * (C x y).re * u y + ∑ x, ∑ y, u x * (C x y).re * u y := by
      unfold form
      simp only [← Finset.sum_sub_distrib, ← Finset.sum_add_distrib]
      exact Finset.sum_congr rfl fun x _ => Finset.sum_congr rfl fun y _ => by ring
    rw [this, hs]
    unfold form
    ring
  rw [h1, h2]
  ring

theorem form_smul (C : X nat → X nat → ℂ) (t : ℝ) (u : X nat → ℝ) : (form C fun x => t * u x) = t ^ 2 * form C u := by
  unfold form
  simp only [Finset.mul_sum]
  exact Finset.sum_congr rfl fun x _ => Finset.sum_congr rfl fun y _ => by ring

/-! ### C182 -/

variable {eigh : Matrix (Fin nb) (Fin nb) ℂ → (Fin nb → ℝ) × Matrix (Fin nb) (Fin nb) ℂ} {level : (Mesh n1 n2 n3 → Fin nb → ℝ) → ℝ}

theorem solved_eq (s : Driver n1 n2 n3 nb nat nq) (v : X nat → ℝ) : solved eigh level s v =
    s.move (center v) (solved eigh level s v).e (solved eigh level s v).U (solved eigh level s v).mu := rfl

theorem solved_diagonalized (h : Externals occ eigh level s) (v : X nat → ℝ) :
    Diagonalized occ (s.move (center v) (solved eigh level s v).e (solved eigh level s v).U (solved eigh level s v).mu) := by
  rw [← solved_eq]
  exact C89_diagonalized occ eigh level { s with u := v, e := fun _ _ => 0, U := fun _ => 0, mu := 0 } h.eig h.unitary h.number h.hamiltonian h.coupling

/-- **C182**: the free energy of any structure is at most that expected from energy and forces of any other structure plus the energy of the
unscreened springs between them. -/
theorem C182_tangent (hkT : 0 < s.kT) (h1 : ∀ x, HasDerivAt occ (-delta x) x) (h3 : ∀ x, HasDerivAt entropy (-x * delta x) x)
    (ha : Antitone occ) (h : Externals occ eigh level s) (hC : ∀ x y, (s.C0 0 x y).re = (s.C0 0 y x).re) (u v : X nat → ℝ) :
    E eigh level occ entropy s v ≤ E eigh level occ entropy s u + ∑ x, G eigh level occ s u x * (center v x - center u x) +
      1 / 2 * form (s.C0 0) fun x => center v x - center u x := by
  have hA := solved_diagonalized h u
  have hB := solved_diagonalized h v
  have key := electronic_tangent hkT h1 h3 ha hA hB
  have eA : E eigh level occ entropy s u = _ := freeEnergy_eq (occ := occ) (entropy := entropy) hkT.ne' (center u) (solved eigh level s u).e
    (solved eigh level s u).U (solved eigh level s u).mu
  have eB : E eigh level occ entropy s v = _ := freeEnergy_eq (occ := occ) (entropy := entropy) hkT.ne' (center v) (solved eigh level s v).e
    (solved eigh level s v).U (solved eigh level s v).mu
  have hG : ∀ x, G eigh level occ s u x = (firstOrderU s.kT occ (solved eigh level s u).e (solved eigh level s u).U (s.d0 0 x)).re +
      (∑ y, (s.C0 0 x y).re * center u y) + s.F0 x := fun x => rfl
  rw [eA, eB, form_expand (s.C0 0) hC (center u) (center v)]
  simp only [hG, add_mul, Finset.sum_add_distrib]
  have hF : ∑ x, s.F0 x * center v x = ∑ x, s.F0 x * center u x + ∑ x, s.F0 x * (center v x - center u x) := by
    rw [← Finset.sum_add_distrib]
    exact Finset.sum_congr rfl fun x _ => by ring
  rw [hF]
  linarith

theorem center_smul (t : ℝ) (w : X nat → ℝ) : center (fun x => t * w x) = fun x => t * center w x := by
  funext x
  unfold center
  rw [← Finset.mul_sum]
  ring

theorem center_zero : center (fun _ : X nat => (0 : ℝ)) = fun _ => 0 := by
  funext x
  unfold center
  simp

theorem center_move (τ : ℝ) (u g : X nat → ℝ) : center (fun x => u x - τ * g x) = fun x => center u x - τ * center g x := by
  funext x
  unfold center
  rw [Finset.sum_sub_distrib, ← Finset.mul_sum]
  ring

/-- Net forces do no work upon relative displacements. -/
theorem sum_center (g w : X nat → ℝ) : ∑ x, g x * center w x = ∑ x, center g x * center w x := by
  rcases Nat.eq_zero_or_pos nat with h0 | h0
  · subst h0
    exact Finset.sum_congr rfl fun x _ => x.1.elim0
  have h : ∑ x : X nat, (∑ na, g (na, x.2)) / nat * center w x = 0 := by
    rw [Fintype.sum_prod_type, Finset.sum_comm]
    refine Finset.sum_eq_zero fun y _ => ?_
    dsimp only
    rw [← Finset.mul_sum, C56_zero w h0, mul_zero]
  have : ∀ x, center g x * center w x = g x * center w x - (∑ na, g (na, x.2)) / nat * center w x := by
    intro x
    unfold center
    ring
  simp only [this, Finset.sum_sub_distrib, h, sub_zero]

theorem form_le (C : X nat → X nat → ℂ) (w : X nat → ℝ) : form C w ≤ (∑ x, ∑ y, |(C x y).re|) * ∑ x, w x ^ 2 := by
  unfold form
  simp only [Finset.sum_mul]
  refine Finset.sum_le_sum fun x _ => Finset.sum_le_sum fun y _ => ?_
  have hx : w x ^ 2 ≤ ∑ z, w z ^ 2 := Finset.single_le_sum (f := fun z => w z ^ 2) (fun z _ => sq_nonneg _) (Finset.mem_univ x)
  have hy : w y ^ 2 ≤ ∑ z, w z ^ 2 := Finset.single_le_sum (f := fun z => w z ^ 2) (fun z _ => sq_nonneg _) (Finset.mem_univ y)
  have h1 : |w x * w y| ≤ ∑ z, w z ^ 2 := by
    rw [abs_le]
    constructor <;> nlinarith [sq_nonneg (w x + w y), sq_nonneg (w x - w y)]
  calc w x * (C x y).re * w y = (C x y).re * (w x * w y) := by ring
    _ ≤ |(C x y).re * (w x * w y)| := le_abs_self _
    _ = |(C x y).re| * |w x * w y| := abs_mul _ _
    _ ≤ |(C x y).re| * ∑ z, w z ^ 2 := mul_le_mul_of_nonneg_left h1 (abs_nonneg _)

/-- **C182**: if the unscreened crystal is unstable with respect to a displacement, the free energy is not bounded from below; electrons
cannot stabilize it. -/
theorem C182_unstable (hkT : 0 < s.kT) (h1 : ∀ x, HasDerivAt occ (-delta x) x) (h3 : ∀ x, HasDerivAt entropy (-x * delta x) x)
    (ha : Antitone occ) (h : Externals occ eigh level s) (hC : ∀ x y, (s.C0 0 x y).re = (s.C0 0 y x).re) (w : X nat → ℝ)
    (hw : form (s.C0 0) (center w) < 0) :
    Filter.Tendsto (fun t : ℝ => E eigh level occ entropy s fun x => t * w x) Filter.atTop Filter.atBot := by
  set a := ∑ x, G eigh level occ s (fun _ => 0) x * center w x with haa
  set b := form (s.C0 0) (center w) with hb
  have hle : ∀ t : ℝ, E eigh level occ entropy s (fun x => t * w x) ≤ E eigh level occ entropy s (fun _ => 0) + t * (a + t * (1 / 2 * b)) := by
    intro t
    have := C182_tangent hkT h1 h3 ha h hC (fun _ => 0) fun x => t * w x
    rw [center_zero, center_smul] at this
    simp only [sub_zero] at this
    rw [form_smul, ← hb] at this
    have e1 : ∑ x, G eigh level occ s (fun _ => 0) x * (t * center w x) = t * a := by
      rw [haa, Finset.mul_sum]
      exact Finset.sum_congr rfl fun x _ => by ring
    rw [e1] at this
    refine this.trans (le_of_eq ?_)
    ring
  refine Filter.tendsto_atBot_mono hle (Filter.tendsto_atBot_add_const_left _ _ ?_)
  refine Filter.Tendsto.atTop_mul_atBot₀ Filter.tendsto_id ?_
  exact Filter.tendsto_atBot_add_const_left _ _ (Filter.Tendsto.atTop_mul_const_of_neg (by linarith) Filter.tendsto_id)

/-- **C182**: a step of steepest descent lowers the free energy if the step size does not exceed the inverse of the largest unscreened spring
constant `L`. Screened force constants, which change during the relaxation, do not have to be known. -/
theorem C182_descent (hkT : 0 < s.kT) (h1 : ∀ x, HasDerivAt occ (-delta x) x) (h3 : ∀ x, HasDerivAt entropy (-x * delta x) x)
    (ha : Antitone occ) (h : Externals occ eigh level s) (hC : ∀ x y, (s.C0 0 x y).re = (s.C0 0 y x).re) (L τ : ℝ)
    (hL : ∀ w, form (s.C0 0) (center w) ≤ L * ∑ x, center w x ^ 2) (hτ : 0 ≤ τ) (hτL : τ * L ≤ 1) (u : X nat → ℝ) :
    E eigh level occ entropy s (fun x => u x - τ * G eigh level occ s u x) ≤
      E eigh level occ entropy s u - τ / 2 * ∑ x, center (G eigh level occ s u) x ^ 2 := by
  have key := C182_tangent hkT h1 h3 ha h hC u fun x => u x - τ * G eigh level occ s u x
  rw [center_move] at key
  set g := G eigh level occ s u with hg
  have e0 : ∀ x, center u x - τ * center g x - center u x = (-τ) * center g x := fun x => by ring
  simp only [e0] at key
  rw [form_smul] at key
  have e1 : ∑ x, g x * (-τ * center g x) = -τ * ∑ x, center g x ^ 2 := by
    have : ∑ x, g x * (-τ * center g x) = -τ * ∑ x, g x * center g x := by
      rw [Finset.mul_sum]
      exact Finset.sum_congr rfl fun x _ => by ring
    rw [this, sum_center]
    simp only [sq]
  rw [e1] at key
  have hS : 0 ≤ ∑ x, center g x ^ 2 := Finset.sum_nonneg fun x _ => sq_nonneg _
  have h4 : (-τ) ^ 2 * form (s.C0 0) (center g) ≤ τ * ∑ x, center g x ^ 2 := by
    calc (-τ) ^ 2 * form (s.C0 0) (center g) ≤ (-τ) ^ 2 * (L * ∑ x, center g x ^ 2) := mul_le_mul_of_nonneg_left (hL g) (sq_nonneg _)
      _ = τ * ((τ * L) * ∑ x, center g x ^ 2) := by ring
      _ ≤ τ * (1 * ∑ x, center g x ^ 2) := mul_le_mul_of_nonneg_left (mul_le_mul_of_nonneg_right hτL hS) hτ
      _ = τ * ∑ x, center g x ^ 2 := by rw [one_mul]
  linarith

/-- Specification: structures visited by steepest descent. -/
noncomputable def path (eigh : Matrix (Fin nb) (Fin nb) ℂ → (Fin nb → ℝ) × Matrix (Fin nb) (Fin nb) ℂ) (level : (Mesh n1 n2 n3 → Fin nb → ℝ) → ℝ)
    (occ : ℝ → ℝ) (s : Driver n1 n2 n3 nb nat nq) (τ : ℝ) (u : X nat → ℝ) : Nat → X nat → ℝ
  | 0 => u
  | i + 1 => fun x => path eigh level occ s τ u i x - τ * G eigh level occ s (path eigh level occ s τ u i) x

/-- **C182**: if the free energy is bounded from below (see `C182_minimum`), forces relax to zero from every starting point. -/
theorem C182_relax (hkT : 0 < s.kT) (h1 : ∀ x, HasDerivAt occ (-delta x) x) (h3 : ∀ x, HasDerivAt entropy (-x * delta x) x)
    (ha : Antitone occ) (h : Externals occ eigh level s) (hC : ∀ x y, (s.C0 0 x y).re = (s.C0 0 y x).re) (L τ : ℝ)
    (hL : ∀ w, form (s.C0 0) (center w) ≤ L * ∑ x, center w x ^ 2) (hτ : 0 < τ) (hτL : τ * L ≤ 1) (m : ℝ)
    (hm : ∀ w, m ≤ E eigh level occ entropy s w) (u : X nat → ℝ) :
    Antitone (fun i => E eigh level occ entropy s (path eigh level occ s τ u i)) ∧
    ∀ x, Filter.Tendsto (fun i => center (G eigh level occ s (path eigh level occ s τ u i)) x) Filter.atTop (nhds 0) := by
  set a : Nat → ℝ := fun i => ∑ x, center (G eigh level occ s (path eigh level occ s τ u i)) x ^ 2 with haa
  set f : Nat → ℝ := fun i => E eigh level occ entropy s (path eigh level occ s τ u i) with hf
  have ha0 : ∀ i, 0 ≤ a i := fun i => Finset.sum_nonneg fun x _ => sq_nonneg _
  have hstep : ∀ i, f (i + 1) ≤ f i - τ / 2 * a i := fun i =>
    C182_descent hkT h1 h3 ha h hC L τ hL hτ.le hτL (path eigh level occ s τ u i)
  refine ⟨antitone_nat_of_succ_le fun i => (hstep i).trans ?_, ?_⟩
  · have := mul_nonneg (by linarith : 0 ≤ τ / 2) (ha0 i)
    linarith
  have hsum : ∀ i, ∑ j ∈ Finset.range i, a j ≤ 2 / τ * (f 0 - m) := by
    have hind : ∀ i, τ / 2 * ∑ j ∈ Finset.range i, a j ≤ f 0 - f i := by
      intro i
      induction i with
      | zero => simp
      | succ i ih =>
        rw [Finset.sum_range_succ, mul_add]
        have := hstep i
        linarith
    intro i
    have h4 := hind i
    have h5 : m ≤ f i := hm _
    rw [div_mul_eq_mul_div, le_div_iff₀ hτ]
    linarith
  have hlim : Filter.Tendsto a Filter.atTop (nhds 0) := (summable_of_sum_range_le ha0 hsum).tendsto_atTop_zero
  intro x
  have hx : ∀ i, center (G eigh level occ s (path eigh level occ s τ u i)) x ^ 2 ≤ a i := fun i =>
    Finset.single_le_sum (f := fun x => center (G eigh level occ s (path eigh level occ s τ u i)) x ^ 2) (fun z _ => sq_nonneg _) (Finset.mem_univ x)
  have h4 : Filter.Tendsto (fun i => center (G eigh level occ s (path eigh level occ s τ u i)) x ^ 2) Filter.atTop (nhds 0) :=
    squeeze_zero (fun i => sq_nonneg _) hx hlim
  have h5 := h4.sqrt
  rw [Real.sqrt_zero] at h5
  simp only [Real.sqrt_sq_eq_abs] at h5
  exact (tendsto_zero_iff_abs_tendsto_zero _).2 h5

/-- **C182**: forces vanish in every structure with locally minimal free energy. -/
theorem C182_stationary (hkT : 0 < s.kT) (h1 : ∀ x, HasDerivAt occ (-delta x) x) (h3 : ∀ x, HasDerivAt entropy (-x * delta x) x)
    (ha : Antitone occ) (h : Externals occ eigh level s) (hC : ∀ x y, (s.C0 0 x y).re = (s.C0 0 y x).re) (u : X nat → ℝ)
    (hu : IsLocalMin (E eigh level occ entropy s) u) : center (G eigh level occ s u) = fun _ => 0 := by
  set L := ∑ x, ∑ y, |(s.C0 0 x y).re| with hLd
  have hL0 : 0 ≤ L := Finset.sum_nonneg fun x _ => Finset.sum_nonneg fun y _ => abs_nonneg _
  have hcont : Filter.Tendsto (fun τ : ℝ => fun x => u x - τ * G eigh level occ s u x) (nhds 0) (nhds u) := by
    have : Continuous fun τ : ℝ => fun x => u x - τ * G eigh level occ s u x := by fun_prop
    have h4 := this.tendsto 0
    simp only [zero_mul, sub_zero] at h4
    exact h4
  have hev := hcont.eventually hu
  have hev2 : ∀ᶠ τ in nhds (0 : ℝ), τ * (L + 1) < 1 := by
    have : Continuous fun τ : ℝ => τ * (L + 1) := by fun_prop
    refine this.tendsto 0 |>.eventually (gt_mem_nhds ?_)
    simp
  have hev3 : ∀ᶠ τ in nhdsWithin (0 : ℝ) (Set.Ioi 0), E eigh level occ entropy s u ≤ E eigh level occ entropy s (fun x => u x - τ * G eigh level occ s u x) ∧
      τ * (L + 1) < 1 ∧ 0 < τ :=
    ((hev.and hev2).filter_mono nhdsWithin_le_nhds).and self_mem_nhdsWithin |>.mono fun τ ⟨⟨a, b⟩, c⟩ => ⟨a, b, c⟩
  obtain ⟨τ, hE, hτ1, hτ0⟩ := hev3.exists
  have hd := C182_descent hkT h1 h3 ha h hC L τ (fun w => form_le _ _) hτ0.le (by nlinarith) u
  have hS : ∑ x, center (G eigh level occ s u) x ^ 2 ≤ 0 := by
    by_contra hn
    push Not at hn
    have := mul_pos (by linarith : 0 < τ / 2) hn
    linarith
  have h0 : ∑ x, center (G eigh level occ s u) x ^ 2 = 0 := le_antisymm hS (Finset.sum_nonneg fun x _ => sq_nonneg _)
  funext x
  exact pow_eq_zero_iff two_ne_zero |>.1 ((Finset.sum_eq_zero_iff_of_nonneg fun x _ => sq_nonneg _).1 h0 x (Finset.mem_univ x))

/-! ### Stable crystals -/

theorem entry_le (V : Matrix (Fin nb) (Fin nb) ℂ) (hV : Vᴴ * V = 1) (a n : Fin nb) : ‖V a n‖ ≤ 1 := by
  have h0 := congrFun (congrFun hV n) n
  rw [Matrix.mul_apply, Matrix.one_apply_eq] at h0
  have h2 : ∀ b, (Vᴴ) n b * V b n = ((‖V b n‖ ^ 2 : ℝ) : ℂ) := by
    intro b
    push_cast
    exact Complex.conj_mul' _
  simp only [h2, ← Complex.ofReal_sum] at h0
  have h3 : ∑ b, ‖V b n‖ ^ 2 = 1 := by exact_mod_cast h0
  have h4 : ‖V a n‖ ^ 2 ≤ 1 := by
    rw [← h3]
    exact Finset.single_le_sum (f := fun b => ‖V b n‖ ^ 2) (fun b _ => sq_nonneg _) (Finset.mem_univ a)
  nlinarith [norm_nonneg (V a n)]

/-- Specification: bound of the electronic forces. -/
noncomputable def bound (s : Driver n1 n2 n3 nb nat nq) (x : X nat) : ℝ := ‖(2 / (n1 * n2 * n3 : Nat) : ℂ)‖ * ∑ k, ∑ _n : Fin nb, ∑ a, ∑ b, ‖s.d0 0 x k a b‖

theorem bound_nonneg (s : Driver n1 n2 n3 nb nat nq) (x : X nat) : 0 ≤ bound s x := by
  unfold bound
  positivity

/-- Electronic forces are bounded, however large the displacement. -/
theorem electronic_bound (h01 : ∀ x, 0 ≤ occ x ∧ occ x ≤ 1) (e : Mesh n1 n2 n3 → Fin nb → ℝ) (U : Mesh n1 n2 n3 → Matrix (Fin nb) (Fin nb) ℂ)
    (hU : ∀ k, (U k)ᴴ * U k = 1) (x : X nat) : |(firstOrderU s.kT occ e U (s.d0 0 x)).re| ≤ bound s x := by
  refine (Complex.abs_re_le_norm _).trans ?_
  rw [firstOrderU_eq, norm_mul]
  unfold bound
  refine mul_le_mul_of_nonneg_left ?_ (norm_nonneg _)
  refine (norm_sum_le _ _).trans (Finset.sum_le_sum fun k _ => (norm_sum_le _ _).trans (Finset.sum_le_sum fun n _ => ?_))
  rw [norm_mul]
  have ho : ‖(occ (e k n / s.kT) : ℂ)‖ ≤ 1 := by
    rw [Complex.norm_real, Real.norm_eq_abs, abs_of_nonneg (h01 _).1]
    exact (h01 _).2
  have hd : ‖((U k)ᴴ * s.d0 0 x k * U k) n n‖ ≤ ∑ a, ∑ b, ‖s.d0 0 x k a b‖ := by
    rw [Matrix.mul_apply]
    simp only [Matrix.mul_apply, Finset.sum_mul]
    rw [Finset.sum_comm]
    refine (norm_sum_le _ _).trans (Finset.sum_le_sum fun a _ => (norm_sum_le _ _).trans (Finset.sum_le_sum fun b _ => ?_))
    rw [norm_mul, norm_mul, Matrix.conjTranspose_apply, norm_star]
    have ha := entry_le (U k) (hU k) a n
    have hb := entry_le (U k) (hU k) b n
    calc ‖U k a n‖ * ‖s.d0 0 x k a b‖ * ‖U k b n‖ ≤ 1 * ‖s.d0 0 x k a b‖ * 1 := by gcongr
      _ = ‖s.d0 0 x k a b‖ := by ring
  calc ‖(occ (e k n / s.kT) : ℂ)‖ * ‖((U k)ᴴ * s.d0 0 x k * U k) n n‖ ≤ 1 * ∑ a, ∑ b, ‖s.d0 0 x k a b‖ := by gcongr
    _ = _ := one_mul _

/-- Electronic part of the free energy as a function of the displacements. -/
noncomputable def el (eigh : Matrix (Fin nb) (Fin nb) ℂ → (Fin nb → ℝ) × Matrix (Fin nb) (Fin nb) ℂ) (level : (Mesh n1 n2 n3 → Fin nb → ℝ) → ℝ)
    (occ entropy : ℝ → ℝ) (s : Driver n1 n2 n3 nb nat nq) (u : X nat → ℝ) : ℝ :=
  grandPotential s.kT occ entropy (solved eigh level s u).e + (solved eigh level s u).mu * s.n

theorem E_eq (hkT : s.kT ≠ 0) (u : X nat → ℝ) : E eigh level occ entropy s u =
    el eigh level occ entropy s u + 0.5 * form (s.C0 0) (center u) + ∑ x, s.F0 x * center u x :=
  freeEnergy_eq (occ := occ) (entropy := entropy) hkT (center u) (solved eigh level s u).e (solved eigh level s u).U (solved eigh level s u).mu

theorem el_lipschitz (hkT : 0 < s.kT) (h1 : ∀ x, HasDerivAt occ (-delta x) x) (h3 : ∀ x, HasDerivAt entropy (-x * delta x) x)
    (ha : Antitone occ) (h01 : ∀ x, 0 ≤ occ x ∧ occ x ≤ 1) (h : Externals occ eigh level s) (u v : X nat → ℝ) :
    el eigh level occ entropy s v ≤ el eigh level occ entropy s u + ∑ x, bound s x * |center v x - center u x| := by
  have key := electronic_tangent hkT h1 h3 ha (solved_diagonalized h u) (solved_diagonalized h v)
  refine key.trans (add_le_add le_rfl (Finset.sum_le_sum fun x _ => ?_))
  have hb := electronic_bound (s := s) h01 (solved eigh level s u).e (solved eigh level s u).U (solved_diagonalized h u).unitary x
  calc _ ≤ |(firstOrderU s.kT occ (solved eigh level s u).e (solved eigh level s u).U (s.d0 0 x)).re * (center v x - center u x)| := le_abs_self _
    _ = _ := abs_mul _ _
    _ ≤ _ := mul_le_mul_of_nonneg_right hb (abs_nonneg _)

/-- **C182**: the free energy does not jump, even where bands cross or the chemical potential is determined anew. -/
theorem C182_continuous (hkT : 0 < s.kT) (h1 : ∀ x, HasDerivAt occ (-delta x) x) (h3 : ∀ x, HasDerivAt entropy (-x * delta x) x)
    (ha : Antitone occ) (h01 : ∀ x, 0 ≤ occ x ∧ occ x ≤ 1) (h : Externals occ eigh level s) :
    Continuous (E eigh level occ entropy s) := by
  have hc : Continuous (center : (X nat → ℝ) → X nat → ℝ) := by
    unfold center
    fun_prop
  have hel : Continuous (el eigh level occ entropy s) := by
    rw [continuous_iff_continuousAt]
    intro u
    rw [ContinuousAt, tendsto_iff_dist_tendsto_zero]
    have hb : Continuous fun v : X nat → ℝ => ∑ x, bound s x * |center v x - center u x| := by fun_prop
    have h0 := hb.tendsto u
    simp only [sub_self, abs_zero, mul_zero, Finset.sum_const_zero] at h0
    refine squeeze_zero (fun _ => dist_nonneg) (fun v => ?_) h0
    rw [Real.dist_eq, abs_le]
    have a1 := el_lipschitz hkT h1 h3 ha h01 h u v
    have a2 := el_lipschitz hkT h1 h3 ha h01 h v u
    simp only [fun x => abs_sub_comm (center u x) (center v x)] at a2
    constructor <;> linarith
  have : E eigh level occ entropy s = fun u => el eigh level occ entropy s u + 0.5 * form (s.C0 0) (center u) + ∑ x, s.F0 x * center u x :=
    funext fun u => E_eq hkT.ne' u
  rw [this]
  unfold form
  fun_prop

/-- **C182**: if the unscreened crystal is stable, there is a structure with minimal free energy, in which forces vanish. -/
theorem C182_minimum (hkT : 0 < s.kT) (h1 : ∀ x, HasDerivAt occ (-delta x) x) (h3 : ∀ x, HasDerivAt entropy (-x * delta x) x)
    (ha : Antitone occ) (h01 : ∀ x, 0 ≤ occ x ∧ occ x ≤ 1) (h : Externals occ eigh level s) (hC : ∀ x y, (s.C0 0 x y).re = (s.C0 0 y x).re)
    (c : ℝ) (hc : 0 < c) (hpos : ∀ w, c * ∑ x, center w x ^ 2 ≤ form (s.C0 0) (center w)) :
    ∃ u, (∀ v, E eigh level occ entropy s u ≤ E eigh level occ entropy s v) ∧ center u = u ∧ center (G eigh level occ s u) = fun _ => 0 := by
  set K : ℝ := ∑ x, (bound s x + |s.F0 x|) with hK
  have hK0 : 0 ≤ K := Finset.sum_nonneg fun x _ => add_nonneg (bound_nonneg s x) (abs_nonneg _)
  have hlow : ∀ v, E eigh level occ entropy s (fun _ => 0) - K * ‖center v‖ + c / 2 * ‖center v‖ ^ 2 ≤ E eigh level occ entropy s v := by
    intro v
    rcases Nat.eq_zero_or_pos nat with hn | hn
    · subst hn
      have : v = fun _ => 0 := funext fun x => x.1.elim0
      rw [this, center_zero]
      have : ‖(fun _ : X 0 => (0 : ℝ))‖ = 0 := norm_zero
      rw [this]
      simp
    have a1 := el_lipschitz hkT h1 h3 ha h01 h v (fun _ => 0)
    rw [center_zero] at a1
    rw [E_eq hkT.ne' v, E_eq hkT.ne' (fun _ => 0), center_zero]
    have f0 : (form (s.C0 0) fun _ => 0) = 0 := by simp [form]
    rw [f0]
    simp only [mul_zero, Finset.sum_const_zero, add_zero]
    have hx : ∀ x, |center v x| ≤ ‖center v‖ := fun x => norm_le_pi_norm (center v) x
    have a2 : ∑ x, bound s x * |0 - center v x| + ∑ x, |s.F0 x| * |center v x| ≤ K * ‖center v‖ := by
      rw [hK, Finset.sum_mul, ← Finset.sum_add_distrib]
      refine Finset.sum_le_sum fun x _ => ?_
      rw [zero_sub, abs_neg, ← add_mul]
      exact mul_le_mul_of_nonneg_left (hx x) (add_nonneg (bound_nonneg s x) (abs_nonneg _))
    have a3 : -∑ x, |s.F0 x| * |center v x| ≤ ∑ x, s.F0 x * center v x := by
      rw [← Finset.sum_neg_distrib]
      refine Finset.sum_le_sum fun x _ => ?_
      rw [← abs_mul]
      exact neg_abs_le _
    have a4 : ‖center v‖ ^ 2 ≤ ∑ x, center v x ^ 2 := by
      have hs0 : 0 ≤ ∑ x, center v x ^ 2 := Finset.sum_nonneg fun x _ => sq_nonneg _
      have : ‖center v‖ ≤ Real.sqrt (∑ x, center v x ^ 2) := by
        refine (pi_norm_le_iff_of_nonneg (Real.sqrt_nonneg _)).2 fun x => ?_
        rw [Real.norm_eq_abs]
        refine Real.abs_le_sqrt ?_
        exact Finset.single_le_sum (f := fun x => center v x ^ 2) (fun z _ => sq_nonneg _) (Finset.mem_univ x)
      calc ‖center v‖ ^ 2 ≤ Real.sqrt (∑ x, center v x ^ 2) ^ 2 := by gcongr
        _ = _ := Real.sq_sqrt hs0
    have a5 : c * ‖center v‖ ^ 2 ≤ form (s.C0 0) (center v) := (mul_le_mul_of_nonneg_left a4 hc.le).trans (hpos v)
    linarith
  have hcont := C182_continuous hkT h1 h3 ha h01 h
  set R : ℝ := 2 * K / c with hR
  have hR0 : 0 ≤ R := by positivity
  obtain ⟨u, hu, hmin⟩ := (isCompact_closedBall (0 : X nat → ℝ) R).exists_isMinOn ⟨0, Metric.mem_closedBall_self hR0⟩ hcont.continuousOn
  have hE : ∀ v, E eigh level occ entropy s (center v) = E eigh level occ entropy s v := fun v => by
    unfold E
    rw [solved_center]
  have hall : ∀ v, E eigh level occ entropy s u ≤ E eigh level occ entropy s v := by
    intro v
    by_cases hv : ‖center v‖ ≤ R
    · rw [← hE v]
      exact hmin (by rw [mem_closedBall_zero_iff]; exact hv)
    · push Not at hv
      have h0 : E eigh level occ entropy s u ≤ E eigh level occ entropy s (fun _ => 0) := hmin (Metric.mem_closedBall_self hR0)
      have h4 := hlow v
      have h5 : 2 * K < ‖center v‖ * c := by
        rw [hR, div_lt_iff₀ hc] at hv
        exact hv
      have h6 : 0 ≤ ‖center v‖ := norm_nonneg _
      nlinarith
  have hG : ∀ v, G eigh level occ s (center v) = G eigh level occ s v := fun v => by
    funext x
    unfold G
    rw [solved_center]
  refine ⟨center u, fun v => ?_, C56_idempotent u, ?_⟩
  · rw [hE]
    exact hall v
  · rw [hG]
    exact C182_stationary hkT h1 h3 ha h hC u (Filter.Eventually.of_forall hall)

/-! ### Reference structure -/

theorem electronic_negative [NeZero nb] (eps : ℝ) (heps : 0 ≤ eps) (hkT : 0 < s.kT) (ha : Antitone occ) (hdelta : ∀ x, 0 < delta x)
    (hq : s.q 0 = fun _ => 0) (hd : ∀ x k, (s.d0 0 x k)ᴴ = s.d0 0 x k) (w : X nat → ℝ) : form (s.electronic eps occ delta 0) w ≤ 0 := by
  have hdos : 0 < ∑ k, ∑ n, delta (s.e k n / s.kT) / s.kT :=
    Finset.sum_pos (fun k _ => Finset.sum_pos (fun n _ => div_pos (hdelta _) hkT) ⟨0, Finset.mem_univ _⟩) ⟨0, Finset.mem_univ _⟩
  obtain ⟨r, hr, heq⟩ := C79_negative eps s.kT heps hkT occ delta ha (fun x => (hdelta x).le) false s.e (s.q 0) (by rw [hq]; exact onMesh_zero) (s.d 0)
    (fun x k n => by
      rw [d_zero s hq]
      have h0 := congrFun (congrFun (show ((s.U k)ᴴ * s.d0 0 x k * s.U k)ᴴ = (s.U k)ᴴ * s.d0 0 x k * s.U k by
        rw [conjTranspose_mul, conjTranspose_mul, conjTranspose_conjTranspose, hd, Matrix.mul_assoc]) n) n
      exact h0) hdos (fun x => (w x : ℂ))
  have h1 : ((form (s.electronic eps occ delta 0) w : ℝ)) = (∑ mu, ∑ nu, star (w mu : ℂ) *
      (selfEnergy false false (fun k m n => (weights eps s.kT occ delta none s.e (s.q 0) k m n : ℂ)) (fun _ _ => 0) (s.d 0) none mu nu +
        fermiShift s.kT delta s.e (s.d 0) mu nu) * (w nu : ℂ)).re := by
    unfold form
    rw [Complex.re_sum]
    refine Finset.sum_congr rfl fun x _ => ?_
    rw [Complex.re_sum]
    refine Finset.sum_congr rfl fun y _ => ?_
    unfold Driver.electronic
    rw [if_pos rfl, Complex.star_def, Complex.conj_ofReal, Complex.re_mul_ofReal, Complex.re_ofReal_mul]
  rw [h1, heq, Complex.ofReal_re]
  exact hr

theorem form_add (A B : X nat → X nat → ℂ) (w : X nat → ℝ) : (form (fun x y => A x y + B x y) w) = form A w + form B w := by
  unfold form
  rw [← Finset.sum_add_distrib]
  refine Finset.sum_congr rfl fun x _ => ?_
  rw [← Finset.sum_add_distrib]
  refine Finset.sum_congr rfl fun y _ => ?_
  rw [Complex.add_re]
  ring

/-- **C182**: in all structures, phonons at the center of the Brillouin zone are softer than those of the unscreened crystal: no curvature of the
free energy exceeds that of the springs. -/
theorem C182_hessian [NeZero nb] (eps : ℝ) (heps : 0 ≤ eps) (hkT : 0 < s.kT) (ha : Antitone occ) (hdelta : ∀ x, 0 < delta x)
    (hq : s.q 0 = fun _ => 0) (h : Externals occ eigh level s) (u w : X nat → ℝ) :
    ∑ x, ∑ y, w x * H eigh level occ delta eps s u x y * w y ≤ form (s.C0 0) w := by
  have h1 : ∑ x, ∑ y, w x * H eigh level occ delta eps s u x y * w y =
      form (fun x y => (solved eigh level s u).electronic eps occ delta 0 x y + s.C0 0 x y) w := rfl
  rw [h1, form_add]
  have := electronic_negative (s := solved eigh level s u) eps heps hkT ha hdelta hq h.coupling w
  linarith

section init
variable (eps : ℝ) (unscreen : Bool) (kT n : ℝ) (q : Fin (nq + 1) → Fin 3 → ℝ) (H0 : Mesh n1 n2 n3 → Matrix (Fin nb) (Fin nb) ℂ)
  (C0 : Fin (nq + 1) → X nat → X nat → ℂ) (d0 : Fin (nq + 1) → X nat → Mesh n1 n2 n3 → Matrix (Fin nb) (Fin nb) ℂ)

theorem solved_init : solved eigh level (Driver.init eigh level eps occ delta unscreen kT n q H0 C0 d0) (fun _ => 0) =
    Driver.init eigh level eps occ delta unscreen kT n q H0 C0 d0 := by
  cases unscreen <;> rfl

/-- **C182**: for a driver as set up, the structure with displacements has a free energy no larger than that of the reference plus the energy of the
unscreened springs. -/
theorem C182_reference (hkT : 0 < kT) (h1 : ∀ x, HasDerivAt occ (-delta x) x) (h3 : ∀ x, HasDerivAt entropy (-x * delta x) x) (ha : Antitone occ)
    (h : Externals occ eigh level (Driver.init eigh level eps occ delta unscreen kT n q H0 C0 d0)) (hC : ∀ x y, star (C0 0 x y) = C0 0 y x)
    (v : X nat → ℝ) :
    E eigh level occ entropy (Driver.init eigh level eps occ delta unscreen kT n q H0 C0 d0) v ≤
      (Driver.init eigh level eps occ delta unscreen kT n q H0 C0 d0).freeEnergy occ entropy +
        1 / 2 * form ((Driver.init eigh level eps occ delta unscreen kT n q H0 C0 d0).C0 0) (center v) := by
  have hk : (Driver.init eigh level eps occ delta unscreen kT n q H0 C0 d0).kT = kT := by unfold Driver.init; cases unscreen <;> rfl
  have key := C182_tangent (by rw [hk]; exact hkT) h1 h3 ha h (Translation.init_symm (occ := occ) (eigh := eigh) (level := level) eps delta unscreen kT n
    q H0 C0 d0 hC) (fun _ => 0) v
  have hG : G eigh level occ (Driver.init eigh level eps occ delta unscreen kT n q H0 C0 d0) (fun _ => 0) = fun _ => 0 := by
    have := (C55_forces eigh level eps occ delta unscreen kT n q H0 C0 d0).2
    funext x
    unfold G
    rw [solved_init]
    exact congrFun this x
  have hE : E eigh level occ entropy (Driver.init eigh level eps occ delta unscreen kT n q H0 C0 d0) (fun _ => 0) =
      (Driver.init eigh level eps occ delta unscreen kT n q H0 C0 d0).freeEnergy occ entropy := by
    unfold E
    rw [solved_init]
  rw [hG, hE, center_zero] at key
  simp only [zero_mul, Finset.sum_const_zero, add_zero, sub_zero] at key
  exact key

/-- **C182**: unscreening makes the crystal stiffer. -/
theorem C182_unscreen [NeZero nb] (heps : 0 ≤ eps) (hkT : 0 < kT) (ha : Antitone occ) (hdelta : ∀ x, 0 < delta x) (hq : q 0 = fun _ => 0)
    (hd : ∀ x k, (d0 0 x k)ᴴ = d0 0 x k) (w : X nat → ℝ) :
    form (C0 0) w ≤ form ((Driver.init eigh level eps occ delta unscreen kT n q H0 C0 d0).C0 0) w := by
  cases unscreen
  · exact le_of_eq rfl
  · set s0 : Driver n1 n2 n3 nb nat nq := (⟨kT, n, q, H0, C0, d0, fun _ => 0, fun _ => 0, fun _ _ => 0, fun _ => 0, 0⟩ :
      Driver n1 n2 n3 nb nat nq).diagonalize eigh level with hs0
    have h1 : C0 0 = fun x y => (Driver.init eigh level eps occ delta true kT n q H0 C0 d0).C0 0 x y + s0.electronic eps occ delta 0 x y := by
      funext x y
      show C0 0 x y = C0 0 x y - (s0.electronic eps occ delta 0 x y + C0 0 x y - C0 0 x y) + s0.electronic eps occ delta 0 x y
      ring
    have h2 := electronic_negative (s := s0) eps heps hkT ha hdelta hq hd w
    conv_lhs => rw [h1]
    rw [form_add]
    linarith

/-- **C182**: if the phonons of the given model are stable, there is a relaxed structure, whether or not the model is unscreened. Steepest
descent with sufficiently small steps from any structure lowers the free energy until forces vanish. -/
theorem C182_relaxed [NeZero nb] (heps : 0 ≤ eps) (hkT : 0 < kT) (h1 : ∀ x, HasDerivAt occ (-delta x) x)
    (h3 : ∀ x, HasDerivAt entropy (-x * delta x) x) (ha : Antitone occ) (h01 : ∀ x, 0 ≤ occ x ∧ occ x ≤ 1) (hdelta : ∀ x, 0 < delta x)
    (hq : q 0 = fun _ => 0) (h : Externals occ eigh level (Driver.init eigh level eps occ delta unscreen kT n q H0 C0 d0))
    (hC : ∀ x y, star (C0 0 x y) = C0 0 y x) (c : ℝ) (hc : 0 < c) (hpos : ∀ w, c * ∑ x, center w x ^ 2 ≤ form (C0 0) (center w)) :
    (∃ u, (∀ v, E eigh level occ entropy (Driver.init eigh level eps occ delta unscreen kT n q H0 C0 d0) u ≤
      E eigh level occ entropy (Driver.init eigh level eps occ delta unscreen kT n q H0 C0 d0) v) ∧
      center (G eigh level occ (Driver.init eigh level eps occ delta unscreen kT n q H0 C0 d0) u) = fun _ => 0) ∧
    ∃ τ0 > 0, ∀ τ, 0 < τ → τ ≤ τ0 → ∀ u,
      Antitone (fun i => E eigh level occ entropy (Driver.init eigh level eps occ delta unscreen kT n q H0 C0 d0)
        (path eigh level occ (Driver.init eigh level eps occ delta unscreen kT n q H0 C0 d0) τ u i)) ∧
      ∀ x, Filter.Tendsto (fun i => center (G eigh level occ (Driver.init eigh level eps occ delta unscreen kT n q H0 C0 d0)
        (path eigh level occ (Driver.init eigh level eps occ delta unscreen kT n q H0 C0 d0) τ u i)) x) Filter.atTop (nhds 0) := by
  have hk : (Driver.init eigh level eps occ delta unscreen kT n q H0 C0 d0).kT = kT := by unfold Driver.init; cases unscreen <;> rfl
  have hd : ∀ x k, (d0 0 x k)ᴴ = d0 0 x k := by
    have := h.coupling
    cases unscreen <;> exact this
  have hs := Translation.init_symm (occ := occ) (eigh := eigh) (level := level) eps delta unscreen kT n q H0 C0 d0 hC
  have hst := C182_unscreen (eigh := eigh) (level := level) (occ := occ) (delta := delta) eps unscreen kT n q H0 C0 d0 heps hkT ha hdelta hq hd
  have hk' : 0 < (Driver.init eigh level eps occ delta unscreen kT n q H0 C0 d0).kT := by rw [hk]; exact hkT
  generalize Driver.init eigh level eps occ delta unscreen kT n q H0 C0 d0 = s at *
  obtain ⟨u, hu, _, hg⟩ := C182_minimum hk' h1 h3 ha h01 h hs c hc fun w => (hpos w).trans (hst _)
  refine ⟨⟨u, hu, hg⟩, ?_⟩
  set L := ∑ x, ∑ y, |(s.C0 0 x y).re| with hLd
  have hL0 : 0 ≤ L := Finset.sum_nonneg fun x _ => Finset.sum_nonneg fun y _ => abs_nonneg _
  refine ⟨1 / (L + 1), by positivity, fun τ hτ hτ0 v => C182_relax hk' h1 h3 ha h hs L τ (fun w => form_le _ _) hτ ?_ _ hu v⟩
  rw [le_div_iff₀ (by linarith)] at hτ0
  nlinarith

end init

/-! ### Examples -/

section examples
open Verif.Occ

/-- Springs between two atoms. -/
noncomputable def springs (k : ℝ) (_ : Fin 1) (x y : X 2) : ℂ := if x.2 = y.2 then (if x.1 = y.1 then (k : ℂ) else -(k : ℂ)) else 0

/-- Two electrons that want two atoms to approach or depart from each other (as `Optimize.duo`), with springs. -/
noncomputable def trap (k : ℝ) : Driver 1 1 1 2 2 0 := { duo with C0 := springs k }

theorem trap_externals (k : ℝ) : Externals gauss eigh2 level2 (trap k) :=
  ⟨duo_externals.eig, duo_externals.unitary, duo_externals.number, duo_externals.hamiltonian, duo_externals.coupling⟩

theorem init_externals (unscreen : Bool) (k : ℝ) : Externals gauss eigh2 level2 (Driver.init eigh2 level2 1e-10 gauss gaussDelta unscreen 1 2 (fun _ _ => 0)
    duo.H0 (springs k) duo.d0) := by
  cases unscreen <;> exact ⟨duo_externals.eig, duo_externals.unitary, duo_externals.number, duo_externals.hamiltonian, duo_externals.coupling⟩

theorem springs_herm (k : ℝ) (x y : X 2) : star (springs k 0 x y) = springs k 0 y x := by
  unfold springs
  simp only [eq_comm (a := y.2), eq_comm (a := y.1)]
  split_ifs <;> simp

theorem springs_symm (k : ℝ) (x y : X 2) : (springs k 0 x y).re = (springs k 0 y x).re := by
  rw [← springs_herm, Complex.star_def, Complex.conj_re]

theorem springs_form (k : ℝ) (w : X 2 → ℝ) : form (springs k 0) (center w) = 2 * k * ∑ x, center w x ^ 2 := by
  have h0 : ∀ x, center w (1, x) = -center w (0, x) := by
    intro x
    have := C56_zero w two_pos x
    rw [Fin.sum_univ_two] at this
    linarith
  unfold form springs
  simp only [Fintype.sum_prod_type, Fin.sum_univ_two, Fin.sum_univ_three, h0]
  simp
  ring

theorem gauss_range (x : ℝ) : 0 ≤ gauss x ∧ gauss x ≤ 1 := ⟨(C35_gauss.pos x).le, (C35_gauss.lt_one x).le⟩

example (u v : X 2 → ℝ) := C182_tangent (s := trap 1) (entropy := gaussEntropy) one_pos (fun x => (C36_gauss x).1) C37_gauss C35_gauss.anti.antitone
  (trap_externals 1) (springs_symm 1) u v

example := C182_unstable (s := trap (-1)) (entropy := gaussEntropy) one_pos (fun x => (C36_gauss x).1) C37_gauss C35_gauss.anti.antitone
  (trap_externals (-1)) (springs_symm (-1)) (stretch 1) (by
    show form (springs (-1) 0) (center (stretch 1)) < 0
    rw [springs_form, center_stretch, Fintype.sum_prod_type]
    simp [Fin.sum_univ_two, Fin.sum_univ_three, stretch])

example (u : X 2 → ℝ) := C182_descent (s := trap 1) (entropy := gaussEntropy) one_pos (fun x => (C36_gauss x).1) C37_gauss C35_gauss.anti.antitone
  (trap_externals 1) (springs_symm 1) 2 (1 / 2) (fun w => by
    show form (springs 1 0) (center w) ≤ _
    rw [springs_form, mul_one]) (by norm_num) (by norm_num) u

theorem trap_minimum : ∃ u, (∀ v, E eigh2 level2 gauss gaussEntropy (trap 1) u ≤ E eigh2 level2 gauss gaussEntropy (trap 1) v) ∧ center u = u ∧
    center (G eigh2 level2 gauss (trap 1) u) = fun _ => 0 := C182_minimum (s := trap 1) (entropy := gaussEntropy) one_pos (fun x => (C36_gauss x).1) C37_gauss C35_gauss.anti.antitone gauss_range
  (trap_externals 1) (springs_symm 1) 2 two_pos (fun w => by
    show _ ≤ form (springs 1 0) (center w)
    rw [springs_form, mul_one])

example (u : X 2 → ℝ) : ∃ m, Antitone (fun i => E eigh2 level2 gauss gaussEntropy (trap 1) (path eigh2 level2 gauss (trap 1) (1 / 2) u i)) ∧
    m ≤ E eigh2 level2 gauss gaussEntropy (trap 1) u := by
  obtain ⟨v, hv, _⟩ := trap_minimum
  exact ⟨E eigh2 level2 gauss gaussEntropy (trap 1) v, (C182_relax (s := trap 1) (entropy := gaussEntropy) one_pos (fun x => (C36_gauss x).1) C37_gauss
    C35_gauss.anti.antitone (trap_externals 1) (springs_symm 1) 2 (1 / 2) (fun w => by
      show form (springs 1 0) (center w) ≤ _
      rw [springs_form, mul_one]) (by norm_num) (by norm_num) _ hv u).1, hv u⟩

example : ∃ u, center (G eigh2 level2 gauss (trap 1) u) = fun _ => 0 := by
  obtain ⟨u, hu, _⟩ := trap_minimum
  exact ⟨u, C182_stationary (s := trap 1) (entropy := gaussEntropy) one_pos (fun x => (C36_gauss x).1) C37_gauss C35_gauss.anti.antitone
    (trap_externals 1) (springs_symm 1) u (Filter.Eventually.of_forall hu)⟩

example := C182_continuous (s := trap 1) (entropy := gaussEntropy) one_pos (fun x => (C36_gauss x).1) C37_gauss C35_gauss.anti.antitone gauss_range
  (trap_externals 1)

example (u w : X 2 → ℝ) := C182_hessian (s := trap 1) 1e-10 (by norm_num) one_pos C35_gauss.anti.antitone gaussDelta_pos rfl (trap_externals 1) u w

example (unscreen : Bool) (v : X 2 → ℝ) := C182_reference (entropy := gaussEntropy) 1e-10 unscreen 1 2 (fun _ _ => 0) duo.H0 (springs 1) duo.d0 one_pos
  (fun x => (C36_gauss x).1) C37_gauss C35_gauss.anti.antitone (init_externals unscreen 1) (springs_herm 1) v

example (w : X 2 → ℝ) := C182_unscreen (eigh := eigh2) (level := level2) (occ := gauss) (delta := gaussDelta) 1e-10 true 1 2 (fun _ _ => 0) duo.H0
  (springs 1) duo.d0 (by norm_num) one_pos C35_gauss.anti.antitone gaussDelta_pos rfl duo_externals.coupling w

example (unscreen : Bool) := C182_relaxed (entropy := gaussEntropy) 1e-10 unscreen 1 2 (fun _ _ => 0) duo.H0 (springs 1) duo.d0 (by norm_num) one_pos
  (fun x => (C36_gauss x).1) C37_gauss C35_gauss.anti.antitone gauss_range gaussDelta_pos rfl (init_externals unscreen 1) (springs_herm 1) 2 two_pos
  (fun w => by rw [springs_form, mul_one])

end examples

end Verif.MD.Bounds
