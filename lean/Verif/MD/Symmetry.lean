import Verif.Diag.SymmetryMore
import Verif.MD.Translation

/-!
# Symmetry of free-energy surfaces (C181)

If Hamiltonian, force constants and coupling given to the driver have a symmetry of the crystal, then so do free energy, forces
and Hessian for all displacements.
-/

namespace Verif.MD

open Matrix
open Verif.Diag Verif.Diag.Derivatives Verif.Diag.Symm

variable {n1 n2 n3 nb nat nq : Nat} [NeZero n1] [NeZero n2] [NeZero n3]

/-! ### Specification -/

/-- A symmetry of the crystal: atoms are permuted, displacements rotated by `Q`, wave vectors mapped by `o.R`, and orbitals transformed
by `o.V`. -/
structure Crystal (H0 : Mesh n1 n2 n3 → Matrix (Fin nb) (Fin nb) ℂ) (C0 : X nat → X nat → ℂ)
    (d0 : X nat → Mesh n1 n2 n3 → Matrix (Fin nb) (Fin nb) ℂ) where
  perm : Equiv.Perm (Fin nat)
  Q : Matrix (Fin 3) (Fin 3) ℝ
  orthogonal : Qᵀ * Q = 1
  o : Operation H0 H0
  coupling : o.Related 0 (fun x y => ((if x.1 = perm y.1 then Q x.2 y.2 else 0 : ℝ) : ℂ)) d0 d0
  springs : ∀ a b x y, C0 (perm a, x) (perm b, y) = ∑ x', ∑ y', (Q x x' : ℂ) * Q y y' * C0 (a, x') (b, y')

section
variable {H0 : Mesh n1 n2 n3 → Matrix (Fin nb) (Fin nb) ℂ} {C0 : X nat → X nat → ℂ}
    {d0 : X nat → Mesh n1 n2 n3 → Matrix (Fin nb) (Fin nb) ℂ}

/-- Rotated and permuted vectors: displacements or forces. -/
def Crystal.act (c : Crystal H0 C0 d0) (u : X nat → ℝ) (x : X nat) : ℝ := ∑ y, c.Q x.2 y * u (c.perm.symm x.1, y)

/-! ### Representation -/

/-- Representation in the space of displacements. -/
def Crystal.rep (c : Crystal H0 C0 d0) : Matrix (X nat) (X nat) ℝ := Matrix.of fun x y => if x.1 = c.perm y.1 then c.Q x.2 y.2 else 0

theorem Crystal.sum_rep {β : Type} [NonUnitalNonAssocSemiring β] (c : Crystal H0 C0 d0) (f : ℝ → β) (hf : f 0 = 0) (g : X nat → β) (x : X nat) :
    ∑ y, f (c.rep x y) * g y = ∑ y, f (c.Q x.2 y) * g (c.perm.symm x.1, y) := by
  rw [Fintype.sum_prod_type, Finset.sum_eq_single (c.perm.symm x.1)]
  · refine Finset.sum_congr rfl fun y _ => ?_
    unfold Crystal.rep
    simp
  · intro b _ hb
    refine Finset.sum_eq_zero fun y _ => ?_
    have : c.rep x (b, y) = 0 := by
      unfold Crystal.rep
      rw [Matrix.of_apply, if_neg]
      rintro h
      exact hb (by rw [h, Equiv.symm_apply_apply])
    rw [this, hf, zero_mul]
  · intro h
    exact absurd (Finset.mem_univ _) h

theorem Crystal.act_eq (c : Crystal H0 C0 d0) (u : X nat → ℝ) : c.act u = c.rep *ᵥ u := by
  funext x
  exact (c.sum_rep (fun r => r) rfl u x).symm

theorem Crystal.rep_orthogonal (c : Crystal H0 C0 d0) : c.repᵀ * c.rep = 1 := by
  ext ⟨a, x⟩ ⟨b, y⟩
  rw [Matrix.mul_apply, Fintype.sum_prod_type, Finset.sum_eq_single (c.perm a)]
  · have h : ∀ z, c.repᵀ (a, x) (c.perm a, z) * c.rep (c.perm a, z) (b, y) = (if a = b then 1 else 0) * (c.Qᵀ x z * c.Q z y) := by
      intro z
      unfold Crystal.rep
      simp only [Matrix.transpose_apply, Matrix.of_apply, if_true, EmbeddingLike.apply_eq_iff_eq]
      split <;> simp
    simp only [h]
    rw [← Finset.mul_sum, ← Matrix.mul_apply, c.orthogonal]
    by_cases hab : a = b <;> by_cases hxy : x = y <;> simp [Matrix.one_apply, hab, hxy]
  · intro d _ hd
    refine Finset.sum_eq_zero fun z _ => ?_
    unfold Crystal.rep
    simp [hd]
  · intro h
    exact absurd (Finset.mem_univ _) h

theorem Crystal.rep_orthogonal' (c : Crystal H0 C0 d0) : c.rep * c.repᵀ = 1 := mul_eq_one_comm.1 c.rep_orthogonal

theorem Crystal.center_act (c : Crystal H0 C0 d0) (u : X nat → ℝ) : center (c.act u) = c.act (center u) := by
  funext ⟨a, x⟩
  unfold center Crystal.act
  simp only [mul_sub, Finset.sum_sub_distrib]
  congr 1
  rw [Finset.sum_comm, Finset.sum_div]
  refine Finset.sum_congr rfl fun y _ => ?_
  rw [← Finset.mul_sum, mul_div_assoc]
  congr 2
  exact Equiv.sum_comp c.perm.symm fun a => u (a, y)

theorem Crystal.springs_rep (c : Crystal H0 C0 d0) (x y : X nat) :
    C0 x y = ∑ x', ∑ y', ((c.rep x x' : ℝ) : ℂ) * ((c.rep y y' : ℝ) : ℂ) * C0 x' y' := by
  have h := c.springs (c.perm.symm x.1) (c.perm.symm y.1) x.2 y.2
  simp only [Equiv.apply_symm_apply] at h
  refine h.trans ?_
  have e1 : ∀ x', ∑ y', ((c.rep x x' : ℝ) : ℂ) * ((c.rep y y' : ℝ) : ℂ) * C0 x' y' =
      ((c.rep x x' : ℝ) : ℂ) * ∑ y', (c.Q y.2 y' : ℂ) * C0 x' (c.perm.symm y.1, y') := by
    intro x'
    rw [← c.sum_rep (fun r => (r : ℂ)) (by simp) (fun y' => C0 x' y') y, Finset.mul_sum]
    exact Finset.sum_congr rfl fun y' _ => by ring
  simp only [e1]
  rw [c.sum_rep (fun r => (r : ℂ)) (by simp) (fun x' => ∑ y', (c.Q y.2 y' : ℂ) * C0 x' (c.perm.symm y.1, y')) x]
  refine Finset.sum_congr rfl fun x' _ => ?_
  rw [Finset.mul_sum]
  exact Finset.sum_congr rfl fun y' _ => by ring

/-- Hamiltonian for displacements `u`. -/
noncomputable def ham (H0 : Mesh n1 n2 n3 → Matrix (Fin nb) (Fin nb) ℂ) (d0 : X nat → Mesh n1 n2 n3 → Matrix (Fin nb) (Fin nb) ℂ)
    (u : X nat → ℝ) (k : Mesh n1 n2 n3) : Matrix (Fin nb) (Fin nb) ℂ := H0 k + ∑ x, (u x : ℂ) • d0 x k

theorem Crystal.ham_act (c : Crystal H0 C0 d0) (u : X nat → ℝ) (k : Mesh n1 n2 n3) :
    ham H0 d0 (c.act u) (c.o.R k) = c.o.V k * ham H0 d0 u k * (c.o.V k)ᴴ := by
  unfold ham
  rw [Matrix.mul_add, Matrix.add_mul, ← c.o.ham]
  congr 1
  have hd : ∀ x, d0 x (c.o.R k) = ∑ y, ((c.rep x y : ℝ) : ℂ) • (c.o.V k * d0 y k * (c.o.V k)ᴴ) := by
    intro x
    have := c.coupling x k
    simp only [add_zero] at this
    exact this
  simp only [hd, Finset.smul_sum, smul_smul]
  rw [Finset.sum_comm, Matrix.mul_sum, Matrix.sum_mul]
  refine Finset.sum_congr rfl fun y _ => ?_
  rw [← Finset.sum_smul, Matrix.mul_smul, Matrix.smul_mul]
  congr 1
  rw [c.act_eq]
  have : ∑ x, (c.rep *ᵥ u) x * c.rep x y = u y := by
    have h := congrFun (Matrix.mulVec_mulVec u c.repᵀ c.rep) y
    rw [c.rep_orthogonal, Matrix.one_mulVec] at h
    rw [← h]
    unfold Matrix.mulVec dotProduct
    exact Finset.sum_congr rfl fun x _ => mul_comm _ _
  exact_mod_cast this

/-- The operation maps the Hamiltonian of displacements to that of rotated displacements. -/
noncomputable def Crystal.displaced (c : Crystal H0 C0 d0) (u : X nat → ℝ) (mu : ℝ) :
    Operation (fun k => ham H0 d0 u k - (mu : ℂ) • 1) (fun k => ham H0 d0 (c.act u) k - (mu : ℂ) • 1) where
  R := c.o.R
  V := c.o.V
  unitary := c.o.unitary
  ham k := by
    rw [c.ham_act, Matrix.mul_sub, Matrix.sub_mul, Matrix.mul_smul, Matrix.smul_mul, Matrix.mul_one,
      mul_eq_one_comm.1 (c.o.unitary k)]

theorem Crystal.related (c : Crystal H0 C0 d0) (u : X nat → ℝ) (mu : ℝ) :
    (c.displaced u mu).Related 0 (fun x y => ((c.rep x y : ℝ) : ℂ)) d0 d0 := c.coupling

end

/-! ### States -/

variable {occ : ℝ → ℝ} {s : Driver n1 n2 n3 nb nat nq}

theorem diagonalizes {u : X nat → ℝ} {e : Mesh n1 n2 n3 → Fin nb → ℝ} {U : Mesh n1 n2 n3 → Matrix (Fin nb) (Fin nb) ℂ} {mu : ℝ}
    (h : Diagonalized occ (s.move u e U mu)) (k : Mesh n1 n2 n3) :
    Diagonalizes (ham s.H0 (s.d0 0) u k - (mu : ℂ) • 1) (e k) (U k) where
  eig := by
    have h1 : ham s.H0 (s.d0 0) u k * U k = U k * diagonal fun n => ((e k n + mu : ℝ) : ℂ) := h.eig k
    rw [Matrix.sub_mul, h1, Matrix.smul_mul, Matrix.one_mul]
    ext a n
    simp only [Matrix.sub_apply, Matrix.mul_diagonal, Matrix.smul_apply, smul_eq_mul]
    push_cast
    ring
  unitary := h.unitary k

theorem level_equal [NeZero nb] (c : Crystal s.H0 (s.C0 0) (s.d0 0)) (hocc : StrictAnti occ) (hkT : 0 < s.kT) {u : X nat → ℝ}
    {e e' : Mesh n1 n2 n3 → Fin nb → ℝ} {U U' : Mesh n1 n2 n3 → Matrix (Fin nb) (Fin nb) ℂ} {mu mu' : ℝ}
    (h : Diagonalized occ (s.move u e U mu)) (h' : Diagonalized occ (s.move (c.act u) e' U' mu')) : mu' = mu := by
  have hV : ∀ k, c.o.V k * (c.o.V k)ᴴ = 1 := fun k => mul_eq_one_comm.1 (c.o.unitary k)
  have h2 : Diagonalized occ (s.move u (fun k => e' (c.o.R k)) (fun k => (c.o.V k)ᴴ * U' (c.o.R k)) mu') := by
    refine ⟨fun k => ?_, fun k => ?_, ?_⟩
    · have h1 : ham s.H0 (s.d0 0) (c.act u) (c.o.R k) * U' (c.o.R k) = U' (c.o.R k) * diagonal fun n => ((e' (c.o.R k) n + mu' : ℝ) : ℂ) :=
        h'.eig (c.o.R k)
      rw [c.ham_act] at h1
      show ham s.H0 (s.d0 0) u k * ((c.o.V k)ᴴ * U' (c.o.R k)) = ((c.o.V k)ᴴ * U' (c.o.R k)) * diagonal fun n => ((e' (c.o.R k) n + mu' : ℝ) : ℂ)
      rw [Matrix.mul_assoc, ← h1]
      simp only [← Matrix.mul_assoc]
      rw [c.o.unitary, Matrix.one_mul]
    · show ((c.o.V k)ᴴ * U' (c.o.R k))ᴴ * ((c.o.V k)ᴴ * U' (c.o.R k)) = 1
      rw [conjTranspose_mul, conjTranspose_conjTranspose, Matrix.mul_assoc, ← Matrix.mul_assoc (c.o.V k), hV, Matrix.one_mul]
      exact h'.unitary (c.o.R k)
    · refine Eq.trans ?_ h'.number
      show 2 / ((n1 * n2 * n3 : Nat) : ℝ) * (∑ k, ∑ n, occ (e' (c.o.R k) n / s.kT)) = 2 / ((n1 * n2 * n3 : Nat) : ℝ) * (∑ k, ∑ n, occ (e' k n / s.kT))
      congr 1
      exact Equiv.sum_comp c.o.R.toEquiv fun k => ∑ n, occ (e' k n / s.kT)
  exact level_unique hocc hkT h2 h

section states
variable (c : Crystal s.H0 (s.C0 0) (s.d0 0)) {u : X nat → ℝ}
    {e e' : Mesh n1 n2 n3 → Fin nb → ℝ} {U U' : Mesh n1 n2 n3 → Matrix (Fin nb) (Fin nb) ℂ} {mu : ℝ}
    (h : Diagonalized occ (s.move u e U mu)) (h' : Diagonalized occ (s.move (c.act u) e' U' mu))

include h h' in
theorem sum_equal (f : ℝ → ℝ) : ∑ k, ∑ n, f (e' k n) = ∑ k, ∑ n, f (e k n) := by
  rw [← Equiv.sum_comp c.o.R.toEquiv]
  refine Finset.sum_congr rfl fun k _ => ?_
  have r := rotated (c.displaced u mu) (fun k => diagonalizes h k) k
  have r' := diagonalizes h' (c.o.R k)
  exact trace_any _ _ _ _ _ r'.unitary r.unitary r'.eig r.eig f

include h h' in
theorem energy_equal (hF : c.act s.F0 = s.F0) (entropy : ℝ → ℝ) :
    (s.move (c.act u) e' U' mu).freeEnergy occ entropy = (s.move u e U mu).freeEnergy occ entropy := by
  have h1 := sum_equal c h h' fun x => occ (x / s.kT) * x
  have h2 := sum_equal c h h' fun x => entropy (x / s.kT)
  have h3 : ∑ x, ∑ y, c.act u x * (s.C0 0 x y).re * c.act u y = ∑ x, ∑ y, u x * (s.C0 0 x y).re * u y := by
    have q : ∀ v : X nat → ℝ, ∑ x, ∑ y, v x * (s.C0 0 x y).re * v y = v ⬝ᵥ ((Matrix.of fun x y => (s.C0 0 x y).re) *ᵥ v) := by
      intro v
      unfold Matrix.mulVec dotProduct
      refine Finset.sum_congr rfl fun x _ => ?_
      rw [Finset.mul_sum]
      exact Finset.sum_congr rfl fun y _ => mul_assoc _ _ _
    have hC : (Matrix.of fun x y => (s.C0 0 x y).re) = c.rep * (Matrix.of fun x y => (s.C0 0 x y).re) * c.repᵀ := by
      ext x y
      rw [Matrix.of_apply, c.springs_rep, Matrix.mul_apply]
      simp only [Matrix.mul_apply, Finset.sum_mul, Matrix.transpose_apply, Matrix.of_apply]
      rw [Finset.sum_comm (γ := X nat), Complex.re_sum]
      refine Finset.sum_congr rfl fun x' _ => ?_
      rw [Complex.re_sum]
      refine Finset.sum_congr rfl fun y' _ => ?_
      rw [← Complex.ofReal_mul, Complex.re_ofReal_mul]
      ring
    rw [q, q, c.act_eq, hC]
    rw [Matrix.mulVec_mulVec, Matrix.mul_assoc, c.rep_orthogonal, Matrix.mul_one, ← Matrix.mulVec_mulVec, ← hC,
      Matrix.dotProduct_mulVec, Matrix.vecMul_mulVec, c.rep_orthogonal, Matrix.vecMul_one]
  have h4 : ∑ x, s.F0 x * c.act u x = ∑ x, s.F0 x * u x := by
    show s.F0 ⬝ᵥ c.act u = s.F0 ⬝ᵥ u
    conv_lhs => rw [← hF]
    rw [c.act_eq, c.act_eq, Matrix.dotProduct_mulVec, Matrix.vecMul_mulVec, c.rep_orthogonal, Matrix.vecMul_one]
  simp only [Driver.freeEnergy, Driver.move, h1, h2, h3, h4]

include h h' in
theorem forces_equal (hF : c.act s.F0 = s.F0) :
    (fun x => (s.move (c.act u) e' U' mu).jacobian occ x) = c.act fun x => (s.move u e U mu).jacobian occ x := by
  funext x
  have h1 : firstOrderU s.kT occ e' U' (s.d0 0 x) = ∑ y, ((c.rep x y : ℝ) : ℂ) * firstOrderU s.kT occ e U (s.d0 0 y) := by
    simp only [firstOrderU_eq]
    exact C176_first (c.displaced u mu) (fun k => diagonalizes h k) (fun k => diagonalizes h' k) s.kT occ _ (s.d0 0) (s.d0 0) (c.related u mu) x
  have h2 : ∑ y, (s.C0 0 x y).re * c.act u y = ∑ z, c.rep x z * ∑ y, (s.C0 0 z y).re * u y := by
    have hC : ∀ y, (s.C0 0 x y).re = ∑ x', ∑ y', c.rep x x' * c.rep y y' * (s.C0 0 x' y').re := by
      intro y
      rw [c.springs_rep, Complex.re_sum]
      refine Finset.sum_congr rfl fun x' _ => ?_
      rw [Complex.re_sum]
      refine Finset.sum_congr rfl fun y' _ => ?_
      rw [← Complex.ofReal_mul, Complex.re_ofReal_mul]
    have hu : ∀ y', ∑ y, c.rep y y' * c.act u y = u y' := by
      intro y'
      have h := congrFun (Matrix.mulVec_mulVec u c.repᵀ c.rep) y'
      rw [c.rep_orthogonal, Matrix.one_mulVec, ← c.act_eq] at h
      exact h
    simp only [hC, Finset.sum_mul]
    rw [Finset.sum_comm]
    refine Finset.sum_congr rfl fun x' _ => ?_
    rw [Finset.sum_comm, Finset.mul_sum]
    refine Finset.sum_congr rfl fun y' _ => ?_
    rw [← hu y', Finset.mul_sum, Finset.mul_sum]
    exact Finset.sum_congr rfl fun y _ => by ring
  have h3 : s.F0 x = ∑ z, c.rep x z * s.F0 z := by
    have := congrFun (c.act_eq s.F0) x
    rw [hF] at this
    exact this
  rw [congrFun (c.act_eq fun x => (s.move u e U mu).jacobian occ x) x]
  show (firstOrderU s.kT occ e' U' (s.d0 0 x)).re + (∑ y, (s.C0 0 x y).re * c.act u y) + s.F0 x =
    ∑ z, c.rep x z * ((firstOrderU s.kT occ e U (s.d0 0 z)).re + (∑ y, (s.C0 0 z y).re * u y) + s.F0 z)
  rw [h1, h2]
  conv_lhs => rw [h3]
  rw [Complex.re_sum, ← Finset.sum_add_distrib, ← Finset.sum_add_distrib]
  refine Finset.sum_congr rfl fun z _ => ?_
  rw [Complex.re_ofReal_mul]
  ring

include h h' in
theorem electronic_equal (hq : s.q 0 = fun _ => 0) (eps : ℝ) (delta : ℝ → ℝ) (x y : X nat) :
    (s.move (c.act u) e' U' mu).electronic eps occ delta 0 x y =
      ∑ x', ∑ y', ((c.rep x x' : ℝ) : ℂ) * ((c.rep y y' : ℝ) : ℂ) * (s.move u e U mu).electronic eps occ delta 0 x' y' := by
  have hd : ∀ (v : X nat → ℝ) (e : Mesh n1 n2 n3 → Fin nb → ℝ) (U : Mesh n1 n2 n3 → Matrix (Fin nb) (Fin nb) ℂ),
      (s.move v e U mu).d 0 = fun x k => mix (U k) (s.d0 0 x k) (U k) := by
    intro v e U
    funext x k m n
    exact congrFun (congrFun (d_zero (s.move v e U mu) hq x k) _) _
  have hc : ∀ U : Mesh n1 n2 n3 → Matrix (Fin nb) (Fin nb) ℂ, Derivatives.coupling U 0 (s.d0 0) = fun x k => mix (U k) (s.d0 0 x k) (U k) := by
    intro U
    funext x k
    unfold Derivatives.coupling
    rw [add_zero]
  have h1 := C176_self_energy (c.displaced u mu) (fun k => diagonalizes h k) (fun k => diagonalizes h' k) eps s.kT occ delta none false
    (fun _ => 0) (fun _ => 0) 0 onMesh_zero (by rw [map_zero]; exact onMesh_zero) (fun x y => ((c.rep x y : ℝ) : ℂ)) (s.d0 0) (s.d0 0) (c.related u mu)
    (s.d0 0) (s.d0 0) (c.related u mu) false x y
  have h2 := C176_fermi_shift (c.displaced u mu) (fun k => diagonalizes h k) (fun k => diagonalizes h' k) s.kT delta
    (fun x y => ((c.rep x y : ℝ) : ℂ)) (s.d0 0) (s.d0 0) (c.related u mu) x y
  simp only [Bool.false_eq_true, if_false, Option.map_none, map_zero, hc, Complex.star_def, Complex.conj_ofReal] at h1
  have hu : ∀ (v : X nat → ℝ) (e : Mesh n1 n2 n3 → Fin nb → ℝ) (U : Mesh n1 n2 n3 → Matrix (Fin nb) (Fin nb) ℂ) (x y : X nat),
      (s.move v e U mu).electronic eps occ delta 0 x y = selfEnergy false false
        (fun k m n => (weights eps s.kT occ delta none e (fun _ => 0) k m n : ℂ)) (fun _ _ => 0) (fun x k => mix (U k) (s.d0 0 x k) (U k)) none x y +
        fermiShift s.kT delta e (fun x k => mix (U k) (s.d0 0 x k) (U k)) x y := by
    intro v e U x y
    unfold Driver.electronic
    rw [if_pos rfl, hd]
    show selfEnergy false false (fun k m n => (weights eps s.kT occ delta none e (s.q 0) k m n : ℂ)) _ _ _ x y + _ = _
    rw [hq]
    rfl
  simp only [hu]
  rw [h1, h2, ← Finset.sum_add_distrib]
  refine Finset.sum_congr rfl fun x' _ => ?_
  rw [← Finset.sum_add_distrib]
  exact Finset.sum_congr rfl fun y' _ => by ring

include h h' in
theorem hessian_equal (hq : s.q 0 = fun _ => 0) (eps : ℝ) (delta : ℝ → ℝ) (x y : X nat) :
    (s.move (c.act u) e' U' mu).hessianGamma eps occ delta x y =
      ∑ x', ∑ y', c.rep x x' * c.rep y y' * (s.move u e U mu).hessianGamma eps occ delta x' y' := by
  unfold Driver.hessianGamma Driver.hessian
  rw [electronic_equal c h h' hq]
  have h1 : (s.move (c.act u) e' U' mu).C0 0 x y = s.C0 0 x y := rfl
  rw [h1, c.springs_rep, ← Finset.sum_add_distrib, Complex.re_sum]
  refine Finset.sum_congr rfl fun x' _ => ?_
  rw [← Finset.sum_add_distrib, Complex.re_sum]
  refine Finset.sum_congr rfl fun y' _ => ?_
  rw [← mul_add, ← Complex.ofReal_mul, Complex.re_ofReal_mul]
  rfl

end states

/-! ### C181 -/

variable [NeZero nb] {eigh : Matrix (Fin nb) (Fin nb) ℂ → (Fin nb → ℝ) × Matrix (Fin nb) (Fin nb) ℂ} {level : (Mesh n1 n2 n3 → Fin nb → ℝ) → ℝ}

theorem at_rotated (c : Crystal s.H0 (s.C0 0) (s.d0 0)) (h : Externals occ eigh level s) (hocc : StrictAnti occ) (hkT : 0 < s.kT)
    (r0 r r' : X nat → ℝ) (hr : (fun x => r' x - r0 x) = c.act fun x => r x - r0 x) :
    ∃ (e e' : Mesh n1 n2 n3 → Fin nb → ℝ) (U U' : Mesh n1 n2 n3 → Matrix (Fin nb) (Fin nb) ℂ) (mu : ℝ),
      s.at eigh level r0 r = s.move (center fun x => r x - r0 x) e U mu ∧
      s.at eigh level r0 r' = s.move (c.act (center fun x => r x - r0 x)) e' U' mu ∧
      Diagonalized occ (s.move (center fun x => r x - r0 x) e U mu) ∧
      Diagonalized occ (s.move (c.act (center fun x => r x - r0 x)) e' U' mu) := by
  have h0 := at_diagonalized h r0 r
  have h1 := at_diagonalized h r0 r'
  have e0 : s.at eigh level r0 r = s.move (center fun x => r x - r0 x) (s.at eigh level r0 r).e (s.at eigh level r0 r).U
      (s.at eigh level r0 r).mu := rfl
  have e1 : s.at eigh level r0 r' = s.move (c.act (center fun x => r x - r0 x)) (s.at eigh level r0 r').e (s.at eigh level r0 r').U
      (s.at eigh level r0 r').mu := by
    rw [← c.center_act, ← hr]
    rfl
  rw [e0] at h0
  rw [e1] at h1
  have hm := level_equal c hocc hkT h0 h1
  rw [hm] at h1 e1
  exact ⟨_, _, _, _, _, e0, e1, h0, h1⟩

/-- **C181**: if all atoms are displaced in a symmetry-equivalent way, the energy is the same and the forces are the rotated ones. -/
theorem C181_forces (c : Crystal s.H0 (s.C0 0) (s.d0 0)) (hF : c.act s.F0 = s.F0) (h : Externals occ eigh level s) (hocc : StrictAnti occ)
    (hkT : 0 < s.kT) (entropy : ℝ → ℝ) (r0 r r' : X nat → ℝ) (hr : (fun x => r' x - r0 x) = c.act fun x => r x - r0 x) :
    (s.call eigh level occ entropy r0 r').1 = (s.call eigh level occ entropy r0 r).1 ∧
      (s.call eigh level occ entropy r0 r').2.1 = c.act (s.call eigh level occ entropy r0 r).2.1 := by
  obtain ⟨e, e', U, U', mu, h1, h2, d1, d2⟩ := at_rotated c h hocc hkT r0 r r' hr
  constructor
  · show 0.5 * (s.at eigh level r0 r').freeEnergy occ entropy = 0.5 * (s.at eigh level r0 r).freeEnergy occ entropy
    rw [h1, h2, energy_equal c d1 d2 hF]
  · funext x
    show -0.5 * (s.at eigh level r0 r').jacobian occ x = c.act (fun x => -0.5 * (s.at eigh level r0 r).jacobian occ x) x
    have := congrFun (forces_equal c d1 d2 hF) x
    rw [h1, h2, this]
    unfold Crystal.act
    rw [Finset.mul_sum]
    exact Finset.sum_congr rfl fun y _ => by ring

/-- **C181**: hence, forces do not break the symmetry of a distorted structure: if the displacements are symmetric, then so are the
forces. -/
theorem C181_preserved (c : Crystal s.H0 (s.C0 0) (s.d0 0)) (hF : c.act s.F0 = s.F0) (h : Externals occ eigh level s) (hocc : StrictAnti occ)
    (hkT : 0 < s.kT) (entropy : ℝ → ℝ) (r0 r : X nat → ℝ) (hr : c.act (fun x => r x - r0 x) = fun x => r x - r0 x) :
    c.act (s.call eigh level occ entropy r0 r).2.1 = (s.call eigh level occ entropy r0 r).2.1 :=
  (C181_forces c hF h hocc hkT entropy r0 r r hr.symm).2.symm

/-- **C181**: the Hessian of the rotated structure is the rotated Hessian. -/
theorem C181_hessian (c : Crystal s.H0 (s.C0 0) (s.d0 0)) (h : Externals occ eigh level s) (hocc : StrictAnti occ)
    (hkT : 0 < s.kT) (hq : s.q 0 = fun _ => 0) (eps : ℝ) (delta : ℝ → ℝ) (r0 r r' : X nat → ℝ)
    (hr : (fun x => r' x - r0 x) = c.act fun x => r x - r0 x) (a b : Fin nat) (x y : Fin 3) :
    (s.at eigh level r0 r').hessianGamma eps occ delta (c.perm a, x) (c.perm b, y) =
      ∑ x', ∑ y', c.Q x x' * c.Q y y' * (s.at eigh level r0 r).hessianGamma eps occ delta (a, x') (b, y') := by
  obtain ⟨e, e', U, U', mu, h1, h2, d1, d2⟩ := at_rotated c h hocc hkT r0 r r' hr
  rw [h1, h2, hessian_equal c d1 d2 hq]
  generalize (s.move (center fun x => r x - r0 x) e U mu).hessianGamma eps occ delta = C
  have e1 : ∀ x', ∑ y', c.rep (c.perm a, x) x' * c.rep (c.perm b, y) y' * C x' y' =
      c.rep (c.perm a, x) x' * ∑ y', c.Q y y' * C x' (b, y') := by
    intro x'
    have := c.sum_rep (fun r => r) rfl (fun y' => C x' y') (c.perm b, y)
    simp only [Equiv.symm_apply_apply] at this
    rw [← this, Finset.mul_sum]
    exact Finset.sum_congr rfl fun y' _ => by ring
  simp only [e1]
  have := c.sum_rep (fun r => r) rfl (fun x' => ∑ y', c.Q y y' * C x' (b, y')) (c.perm a, x)
  simp only [Equiv.symm_apply_apply] at this
  rw [this]
  refine Finset.sum_congr rfl fun x' _ => ?_
  rw [Finset.mul_sum]
  exact Finset.sum_congr rfl fun y' _ => by ring

/-- **C181**: the driver has the symmetry of the model it is set up from, no matter whether the force constants are unscreened. -/
theorem C181_init (eps : ℝ) (delta : ℝ → ℝ) (unscreen : Bool) (kT n : ℝ) (hkT : 0 < kT) (hocc : StrictAnti occ)
    (q : Fin (nq + 1) → Fin 3 → ℝ) (hq : q 0 = fun _ => 0) (H0 : Mesh n1 n2 n3 → Matrix (Fin nb) (Fin nb) ℂ)
    (C0 : Fin (nq + 1) → X nat → X nat → ℂ) (d0 : Fin (nq + 1) → X nat → Mesh n1 n2 n3 → Matrix (Fin nb) (Fin nb) ℂ)
    (c : Crystal H0 (C0 0) (d0 0)) (h : Externals occ eigh level (Driver.init eigh level eps occ delta unscreen kT n q H0 C0 d0)) :
    ∃ c' : Crystal (Driver.init eigh level eps occ delta unscreen kT n q H0 C0 d0).H0
        ((Driver.init eigh level eps occ delta unscreen kT n q H0 C0 d0).C0 0)
        ((Driver.init eigh level eps occ delta unscreen kT n q H0 C0 d0).d0 0),
      c'.perm = c.perm ∧ c'.Q = c.Q ∧ c'.act (Driver.init eigh level eps occ delta unscreen kT n q H0 C0 d0).F0 =
        (Driver.init eigh level eps occ delta unscreen kT n q H0 C0 d0).F0 := by
  set s0 : Driver n1 n2 n3 nb nat nq := ⟨kT, n, q, H0, C0, d0, fun _ => 0, fun _ => 0, fun _ _ => 0, fun _ => 0, 0⟩ with hs0
  set s1 := s0.diagonalize eigh level with hs1
  have hE : Externals occ eigh level s0 := by
    cases unscreen <;> exact ⟨h.eig, h.unitary, h.number, h.hamiltonian, h.coupling⟩
  have hz : center (fun _ : X nat => (0 : ℝ)) = fun _ => 0 := by
    funext x
    simp [center]
  have hd1 : Diagonalized occ s1 := C89_diagonalized occ eigh level s0 hE.eig hE.unitary hE.number hE.hamiltonian hE.coupling
  have hm1 : s1 = s0.move (fun _ => 0) s1.e s1.U s1.mu := by
    show s0.move (center fun _ => 0) s1.e s1.U s1.mu = _
    rw [hz]
  have hzero : c.act (fun _ => 0) = fun _ => 0 := by
    funext x
    simp [Crystal.act]
  have hd1' : Diagonalized occ (s0.move (fun _ => 0) s1.e s1.U s1.mu) := hm1 ▸ hd1
  have hd1'' : Diagonalized occ (s0.move (c.act fun _ => 0) s1.e s1.U s1.mu) := by rw [hzero]; exact hd1'
  -- force constants
  set C1 : X nat → X nat → ℂ := fun x y => if unscreen then C0 0 x y - (s1.hessian eps occ delta 0 x y - C0 0 x y) else C0 0 x y with hC1
  have hel : ∀ x y, s1.electronic eps occ delta 0 x y = ∑ x', ∑ y', ((c.rep x x' : ℝ) : ℂ) * ((c.rep y y' : ℝ) : ℂ) *
      s1.electronic eps occ delta 0 x' y' := by
    intro x y
    have := electronic_equal (s := s0) c hd1' hd1'' hq eps delta x y
    rw [hzero, ← hm1] at this
    exact this
  have hsp : ∀ x y, C1 x y = ∑ x', ∑ y', ((c.rep x x' : ℝ) : ℂ) * ((c.rep y y' : ℝ) : ℂ) * C1 x' y' := by
    intro x y
    have e1 : ∀ x y, C1 x y = C0 0 x y - if unscreen then s1.electronic eps occ delta 0 x y else 0 := by
      intro x y
      rw [hC1]
      simp only
      have : s1.hessian eps occ delta 0 x y = s1.electronic eps occ delta 0 x y + C0 0 x y := rfl
      rw [this]
      split <;> ring
    simp only [e1]
    rw [c.springs_rep x y]
    cases unscreen with
    | false =>
      simp only [Bool.false_eq_true, if_false, sub_zero]
    | true =>
      simp only [if_true]
      conv_lhs => rw [hel x y]
      rw [← Finset.sum_sub_distrib]
      refine Finset.sum_congr rfl fun x' _ => ?_
      rw [← Finset.sum_sub_distrib]
      exact Finset.sum_congr rfl fun y' _ => by ring
  have hspr : ∀ a b x y, C1 (c.perm a, x) (c.perm b, y) = ∑ x', ∑ y', (c.Q x x' : ℂ) * c.Q y y' * C1 (a, x') (b, y') := by
    intro a b x y
    rw [hsp]
    have e1 : ∀ x', ∑ y', ((c.rep (c.perm a, x) x' : ℝ) : ℂ) * ((c.rep (c.perm b, y) y' : ℝ) : ℂ) * C1 x' y' =
        ((c.rep (c.perm a, x) x' : ℝ) : ℂ) * ∑ y', (c.Q y y' : ℂ) * C1 x' (b, y') := by
      intro x'
      have := c.sum_rep (fun r => (r : ℂ)) (by simp) (fun y' => C1 x' y') (c.perm b, y)
      simp only [Equiv.symm_apply_apply] at this
      rw [← this, Finset.mul_sum]
      exact Finset.sum_congr rfl fun y' _ => by ring
    simp only [e1]
    have := c.sum_rep (fun r => (r : ℂ)) (by simp) (fun x' => ∑ y', (c.Q y y' : ℂ) * C1 x' (b, y')) (c.perm a, x)
    simp only [Equiv.symm_apply_apply] at this
    rw [this]
    refine Finset.sum_congr rfl fun x' _ => ?_
    rw [Finset.mul_sum]
    exact Finset.sum_congr rfl fun y' _ => by ring
  let c1 : Crystal H0 C1 (d0 0) := ⟨c.perm, c.Q, c.orthogonal, c.o, c.coupling, hspr⟩
  -- forces
  let s2 : Driver n1 n2 n3 nb nat nq := { s0 with C0 := fun iq x y => if unscreen then C0 iq x y - (s1.hessian eps occ delta iq x y - C0 iq x y) else C0 iq x y }
  have hd2 : Diagonalized occ (s2.move (fun _ => 0) s1.e s1.U s1.mu) := ⟨hd1'.eig, hd1'.unitary, hd1'.number⟩
  let c2 : Crystal s2.H0 (s2.C0 0) (s2.d0 0) := c1
  have hzero2 : c2.act (fun _ => 0) = fun _ => 0 := hzero
  have hd2' : Diagonalized occ (s2.move (c2.act fun _ => 0) s1.e s1.U s1.mu) := by rw [hzero2]; exact hd2
  have hF0 : c2.act s2.F0 = s2.F0 := hzero
  have hj := forces_equal c2 hd2 hd2' hF0
  rw [hzero2] at hj
  have hinit : (Driver.init eigh level eps occ delta unscreen kT n q H0 C0 d0).F0 = fun x => -(s2.move (fun _ => 0) s1.e s1.U s1.mu).jacobian occ x := by
    cases unscreen with
    | false =>
      show (fun x => -s1.jacobian occ x) = fun x => -(s2.move (fun _ => 0) s1.e s1.U s1.mu).jacobian occ x
      conv_lhs => rw [hm1]
      rfl
    | true =>
      show (fun x => -({ s1 with C0 := fun iq x y => s1.C0 iq x y - (s1.hessian eps occ delta iq x y - s1.C0 iq x y) } : Driver n1 n2 n3 nb nat nq).jacobian occ x) = _
      have : ({ s1 with C0 := fun iq x y => s1.C0 iq x y - (s1.hessian eps occ delta iq x y - s1.C0 iq x y) } : Driver n1 n2 n3 nb nat nq) =
          s2.move (fun _ => 0) s1.e s1.U s1.mu := by
        show ({ s1 with u := s1.u, C0 := fun iq x y => s1.C0 iq x y - (s1.hessian eps occ delta iq x y - s1.C0 iq x y) } : Driver n1 n2 n3 nb nat nq) = _
        have hu : s1.u = fun _ => 0 := hz
        rw [hu]
        rfl
      rw [this]
  have hF : c2.act (Driver.init eigh level eps occ delta unscreen kT n q H0 C0 d0).F0 =
      (Driver.init eigh level eps occ delta unscreen kT n q H0 C0 d0).F0 := by
    rw [hinit]
    funext x
    have := congrFun hj x
    simp only at this
    rw [this]
    unfold Crystal.act
    rw [← Finset.sum_neg_distrib]
    exact Finset.sum_congr rfl fun y _ => by ring
  cases unscreen with
  | false => exact ⟨c1, rfl, rfl, hF⟩
  | true => exact ⟨c1, rfl, rfl, hF⟩

/-! ### Example -/

/-- Inversion of the dimer. -/
noncomputable def dimerInversion : Crystal dimer.H0 (dimer.C0 0) (dimer.d0 0) where
  perm := Equiv.swap 0 1
  Q := -1
  orthogonal := by simp
  o := { R := AddEquiv.refl _, V := fun _ => 1, unitary := fun _ => by simp, ham := fun k => by simp [dimer] }
  coupling := by
    intro x k
    rw [sum_X2]
    obtain ⟨a, x⟩ := x
    fin_cases a <;> fin_cases x <;> simp [dimer, Equiv.swap_apply_left, Equiv.swap_apply_right]
  springs := by
    intro a b x y
    simp only [Fin.sum_univ_three]
    fin_cases a <;> fin_cases b <;> fin_cases x <;> fin_cases y <;> simp [dimer]

theorem dimer_forces_symmetric : dimerInversion.act dimer.F0 = dimer.F0 := by
  funext ⟨a, x⟩
  unfold Crystal.act
  rw [Fin.sum_univ_three]
  fin_cases a <;> fin_cases x <;> simp [dimerInversion, dimer]

/-- Stretching of the dimer is symmetric: opposite forces. -/
example (r0 : X 2 → ℝ) (t : ℝ) := C181_preserved dimerInversion dimer_forces_symmetric dimer_externals Verif.Occ.C35_gauss.anti one_pos
  Verif.Occ.gaussEntropy r0 (fun x => r0 x + stretch t x) (by
    funext ⟨a, x⟩
    unfold Crystal.act
    rw [Fin.sum_univ_three]
    fin_cases a <;> fin_cases x <;> simp [dimerInversion, stretch])

example (r0 r : X 2 → ℝ) := C181_forces dimerInversion dimer_forces_symmetric dimer_externals Verif.Occ.C35_gauss.anti one_pos
  Verif.Occ.gaussEntropy r0 r (fun x => r0 x + dimerInversion.act (fun x => r x - r0 x) x) (by funext x; simp)

example (r0 r : X 2 → ℝ) := C181_hessian dimerInversion dimer_externals Verif.Occ.C35_gauss.anti one_pos rfl 1e-10 Verif.Occ.gaussDelta
  r0 r (fun x => r0 x + dimerInversion.act (fun x => r x - r0 x) x) (by funext x; simp) 0 1

example (unscreen : Bool) := C181_init 1 Verif.Occ.gaussDelta unscreen 1 1 one_pos Verif.Occ.C35_gauss.anti (fun _ _ => 0) rfl dimer.H0 dimer.C0
  dimer.d0 dimerInversion (Translation.dimer_init unscreen)

end Verif.MD
