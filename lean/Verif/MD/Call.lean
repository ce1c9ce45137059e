import Mathlib.Analysis.Calculus.MeanValue
import Mathlib.Analysis.SpecialFunctions.Trigonometric.Deriv
import Mathlib.Tactic.FinCases
import Verif.MD.Density

/-!
# Interface to i-PI and random displacements: `elphmod/md.py` 174-186, 882-904 (C134)
-/

namespace Verif.MD

open Verif.Diag Matrix

variable {n1 n2 n3 nb nat nq : Nat}

/-- State of the driver when energy and forces are evaluated, `elphmod/md.py` 898-900: new displacements, diagonalization within
`free_energy`. -/
noncomputable def Driver.at (eigh : Matrix (Fin nb) (Fin nb) ℂ → (Fin nb → ℝ) × Matrix (Fin nb) (Fin nb) ℂ)
    (level : (Mesh n1 n2 n3 → Fin nb → ℝ) → ℝ) (s : Driver n1 n2 n3 nb nat nq) (r0 r : X nat → ℝ) : Driver n1 n2 n3 nb nat nq :=
  ({ s with u := fun x => r x - r0 x } : Driver n1 n2 n3 nb nat nq).diagonalize eigh level

/-- `elphmod/md.py` 882-904 (`__call__`): energy, forces and virial (`r0` are the unperturbed positions `self.elph.ph.r`). -/
noncomputable def Driver.call (eigh : Matrix (Fin nb) (Fin nb) ℂ → (Fin nb → ℝ) × Matrix (Fin nb) (Fin nb) ℂ)
    (level : (Mesh n1 n2 n3 → Fin nb → ℝ) → ℝ) (occ entropy : ℝ → ℝ) (s : Driver n1 n2 n3 nb nat nq) (r0 r : X nat → ℝ) :
    ℝ × (X nat → ℝ) × Matrix (Fin 3) (Fin 3) ℝ :=
  (0.5 * (s.at eigh level r0 r).freeEnergy occ entropy, fun x => -0.5 * (s.at eigh level r0 r).jacobian occ x, 0)

/-- `elphmod/md.py` 174-186 (`random_displacements`) on every process; `rand` are the numbers drawn by the first one. -/
noncomputable def randomDisplacements (amplitude : ℝ) (rand : X nat → ℝ) : X nat → ℝ :=
  center fun x => amplitude * (1 - 2 * rand x)

/-! ### Independence of the choice of eigenvectors -/

/-- A function of a matrix does not depend on choice and order of eigenvectors. -/
theorem spectral_any {ι : Type} [Fintype ι] [DecidableEq ι] (H U V : Matrix ι ι ℂ) (d e : ι → ℝ) (hU : Uᴴ * U = 1) (hV : Vᴴ * V = 1)
    (h1 : H * U = U * diagonal fun n => (d n : ℂ)) (h2 : H * V = V * diagonal fun n => (e n : ℂ)) (f : ℝ → ℝ) :
    U * diagonal (fun n => (f (d n) : ℂ)) * Uᴴ = V * diagonal (fun n => (f (e n) : ℂ)) * Vᴴ := by
  have hU' : U * Uᴴ = 1 := mul_eq_one_comm.1 hU
  have hV' : V * Vᴴ = 1 := mul_eq_one_comm.1 hV
  set W := Vᴴ * U with hW
  have hc : diagonal (fun n => (e n : ℂ)) * W = W * diagonal fun n => (d n : ℂ) := by
    have h3 : Vᴴ * H = diagonal (fun n => (e n : ℂ)) * Vᴴ := by
      calc Vᴴ * H = Vᴴ * H * (V * Vᴴ) := by rw [hV', Matrix.mul_one]
        _ = Vᴴ * (H * V) * Vᴴ := by noncomm_ring
        _ = (Vᴴ * V) * diagonal (fun n => (e n : ℂ)) * Vᴴ := by rw [h2]; noncomm_ring
        _ = _ := by rw [hV, Matrix.one_mul]
    calc diagonal (fun n => (e n : ℂ)) * W = diagonal (fun n => (e n : ℂ)) * Vᴴ * U := by rw [hW]; noncomm_ring
      _ = Vᴴ * (H * U) := by rw [← h3]; noncomm_ring
      _ = _ := by rw [h1, hW]; noncomm_ring
  have hf : diagonal (fun n => (f (e n) : ℂ)) * W = W * diagonal fun n => (f (d n) : ℂ) := by
    ext i j
    have := congrFun (congrFun hc i) j
    rw [diagonal_mul, mul_diagonal] at this ⊢
    by_cases h : e i = d j
    · rw [h, mul_comm]
    · have hz : W i j = 0 := by
        have h5 : ((e i : ℂ) - d j) * W i j = 0 := by rw [sub_mul, this]; ring
        rcases mul_eq_zero.1 h5 with h6 | h6
        · exact absurd (by exact_mod_cast sub_eq_zero.1 h6) h
        · exact h6
      rw [hz]
      ring
  have hVW : V * W = U := by rw [hW, ← Matrix.mul_assoc, hV', Matrix.one_mul]
  have hWW : W * Wᴴ = 1 := by
    rw [hW, conjTranspose_mul, conjTranspose_conjTranspose]
    calc Vᴴ * U * (Uᴴ * V) = Vᴴ * (U * Uᴴ) * V := by noncomm_ring
      _ = 1 := by rw [hU', Matrix.mul_one, hV]
  calc U * diagonal (fun n => (f (d n) : ℂ)) * Uᴴ =
        V * (W * diagonal (fun n => (f (d n) : ℂ))) * Wᴴ * Vᴴ := by
          rw [← hVW, conjTranspose_mul]
          noncomm_ring
      _ = V * diagonal (fun n => (f (e n) : ℂ)) * (W * Wᴴ) * Vᴴ := by rw [← hf]; noncomm_ring
      _ = _ := by rw [hWW, Matrix.mul_one]

theorem trace_any {ι : Type} [Fintype ι] [DecidableEq ι] (H U V : Matrix ι ι ℂ) (d e : ι → ℝ) (hU : Uᴴ * U = 1) (hV : Vᴴ * V = 1)
    (h1 : H * U = U * diagonal fun n => (d n : ℂ)) (h2 : H * V = V * diagonal fun n => (e n : ℂ)) (f : ℝ → ℝ) :
    ∑ n, f (d n) = ∑ n, f (e n) := by
  have h := congrArg Matrix.trace (spectral_any H U V d e hU hV h1 h2 f)
  rw [Matrix.trace_mul_cycle, hU, Matrix.one_mul, Matrix.trace_mul_cycle, hV, Matrix.one_mul, Matrix.trace_diagonal,
    Matrix.trace_diagonal] at h
  exact_mod_cast h

section gauge

variable {occ : ℝ → ℝ} {s : Driver n1 n2 n3 nb nat nq} {u : X nat → ℝ} {e e' : Mesh n1 n2 n3 → Fin nb → ℝ}
    {U U' : Mesh n1 n2 n3 → Matrix (Fin nb) (Fin nb) ℂ} {mu mu' : ℝ}

theorem sum_any (h : Diagonalized occ (s.move u e U mu)) (h' : Diagonalized occ (s.move u e' U' mu')) (f : ℝ → ℝ) :
    ∑ k, ∑ n, f (e k n + mu) = ∑ k, ∑ n, f (e' k n + mu') :=
  Finset.sum_congr rfl fun k _ => trace_any _ _ _ _ _ (h.unitary k) (h'.unitary k) (h.eig k) (h'.eig k) f

/-- For a monotonic occupation function, the chemical potential is unique. -/
theorem level_unique [NeZero n1] [NeZero n2] [NeZero n3] [NeZero nb] (hocc : StrictAnti occ) (hkT : 0 < s.kT)
    (h : Diagonalized occ (s.move u e U mu)) (h' : Diagonalized occ (s.move u e' U' mu')) : mu = mu' := by
  have hN : (0 : ℝ) < 2 / (n1 * n2 * n3 : Nat) := by
    have : 0 < n1 * n2 * n3 := Nat.mul_pos (Nat.mul_pos (NeZero.pos n1) (NeZero.pos n2)) (NeZero.pos n3)
    exact div_pos two_pos (by exact_mod_cast this)
  have hn := h.number.trans h'.number.symm
  simp only [Driver.move] at hn
  have hn := mul_left_cancel₀ hN.ne' hn
  have ha := sum_any h h' fun x => occ ((x - mu') / s.kT)
  simp only [add_sub_cancel_right] at ha
  rw [← ha] at hn
  have mono : ∀ a b : ℝ, a < b → (∑ k, ∑ n, occ ((e k n + mu - a) / s.kT)) < ∑ k, ∑ n, occ ((e k n + mu - b) / s.kT) := by
    intro a b hab
    refine Finset.sum_lt_sum_of_nonempty Finset.univ_nonempty fun k _ => Finset.sum_lt_sum_of_nonempty
      ⟨⟨0, NeZero.pos nb⟩, Finset.mem_univ _⟩ fun n _ => hocc ?_
    exact div_lt_div_of_pos_right (by linarith) hkT
  have hn' : (∑ k, ∑ n, occ ((e k n + mu - mu) / s.kT)) = ∑ k, ∑ n, occ ((e k n + mu - mu') / s.kT) := by
    simpa only [add_sub_cancel_right] using hn
  rcases lt_trichotomy mu mu' with hm | hm | hm
  · exact absurd hn' (mono _ _ hm).ne
  · exact hm
  · exact absurd hn' (mono _ _ hm).ne'

theorem energy_any (h : Diagonalized occ (s.move u e U mu)) (h' : Diagonalized occ (s.move u e' U' mu)) (entropy : ℝ → ℝ) :
    (s.move u e U mu).freeEnergy occ entropy = (s.move u e' U' mu).freeEnergy occ entropy := by
  have h1 := sum_any h h' fun x => occ ((x - mu) / s.kT) * (x - mu)
  have h2 := sum_any h h' fun x => entropy ((x - mu) / s.kT)
  simp only [add_sub_cancel_right] at h1 h2
  simp only [Driver.freeEnergy, Driver.move, h1, h2]

theorem jacobian_any [NeZero n1] [NeZero n2] [NeZero n3] (h : Diagonalized occ (s.move u e U mu)) (h' : Diagonalized occ (s.move u e' U' mu)) (x : X nat) :
    (s.move u e U mu).jacobian occ x = (s.move u e' U' mu).jacobian occ x := by
  have key : firstOrderU s.kT occ e U (s.d0 0 x) = firstOrderU s.kT occ e' U' (s.d0 0 x) := by
    rw [firstOrderU_eq, firstOrderU_eq]
    congr 1
    refine Finset.sum_congr rfl fun k _ => ?_
    have hg := spectral_any _ _ _ _ _ (h.unitary k) (h'.unitary k) (h.eig k) (h'.eig k) fun y => occ ((y - mu) / s.kT)
    simp only [Driver.move, add_sub_cancel_right] at hg
    have ht : ∀ (e : Fin nb → ℝ) (W : Matrix (Fin nb) (Fin nb) ℂ), ∑ n, (occ (e n / s.kT) : ℂ) * (Wᴴ * s.d0 0 x k * W) n n =
        Matrix.trace (s.d0 0 x k * (W * diagonal (fun n => (occ (e n / s.kT) : ℂ)) * Wᴴ)) := by
      intro e W
      calc ∑ n, (occ (e n / s.kT) : ℂ) * (Wᴴ * s.d0 0 x k * W) n n =
            Matrix.trace (diagonal (fun n => (occ (e n / s.kT) : ℂ)) * (Wᴴ * s.d0 0 x k * W)) := by
              simp only [Matrix.trace, Matrix.diag, diagonal_mul]
        _ = Matrix.trace ((diagonal (fun n => (occ (e n / s.kT) : ℂ)) * Wᴴ) * (s.d0 0 x k * W)) := by
              congr 1; noncomm_ring
        _ = Matrix.trace ((s.d0 0 x k * W) * (diagonal (fun n => (occ (e n / s.kT) : ℂ)) * Wᴴ)) := Matrix.trace_mul_comm _ _
        _ = _ := by congr 1; noncomm_ring
    rw [ht, ht, hg]
  simp only [Driver.jacobian, Driver.move]
  rw [key]

end gauge

/-! ### Energy and forces -/

/-- Specification of external functions: diagonalization of Hermitian matrices, chemical potential; Hermitian operators. -/
structure Externals (occ : ℝ → ℝ) (eigh : Matrix (Fin nb) (Fin nb) ℂ → (Fin nb → ℝ) × Matrix (Fin nb) (Fin nb) ℂ)
    (level : (Mesh n1 n2 n3 → Fin nb → ℝ) → ℝ) (s : Driver n1 n2 n3 nb nat nq) : Prop where
  eig : ∀ A : Matrix (Fin nb) (Fin nb) ℂ, Aᴴ = A → A * (eigh A).2 = (eigh A).2 * diagonal fun n => (((eigh A).1 n : ℝ) : ℂ)
  unitary : ∀ A : Matrix (Fin nb) (Fin nb) ℂ, Aᴴ = A → (eigh A).2ᴴ * (eigh A).2 = 1
  number : ∀ e : Mesh n1 n2 n3 → Fin nb → ℝ, 2 / (n1 * n2 * n3 : Nat) * (∑ k, ∑ n, occ ((e k n - level e) / s.kT)) = s.n
  hamiltonian : ∀ k, (s.H0 k)ᴴ = s.H0 k
  coupling : ∀ x k, (s.d0 0 x k)ᴴ = s.d0 0 x k

/-- Translational invariance: acoustic sum rules for force constants, coupling, and forces at the reference; symmetric force constants. -/
structure SumRules (s : Driver n1 n2 n3 nb nat nq) : Prop where
  symm : ∀ x y, (s.C0 0 x y).re = (s.C0 0 y x).re
  springs : ∀ x y, ∑ na, (s.C0 0 (na, x) y).re = 0
  coupling : ∀ x k, ∑ na, s.d0 0 (na, x) k = 0
  forces : ∀ x, ∑ na, s.F0 (na, x) = 0

/-- Along the path of positions `r`, the electronic states can be chosen as differentiable functions. -/
def Smooth (occ : ℝ → ℝ) (s : Driver n1 n2 n3 nb nat nq) (r0 : X nat → ℝ) (r : ℝ → X nat → ℝ) (r' : X nat → ℝ) (t : ℝ) : Prop :=
  ∃ e U mu e' U' mu', Path occ s (fun t => center fun x => r t x - r0 x) e U mu t (center r') e' U' mu'

section call

variable [NeZero n1] [NeZero n2] [NeZero n3] [NeZero nb] {occ : ℝ → ℝ}
    {eigh : Matrix (Fin nb) (Fin nb) ℂ → (Fin nb → ℝ) × Matrix (Fin nb) (Fin nb) ℂ} {level : (Mesh n1 n2 n3 → Fin nb → ℝ) → ℝ}
    {s : Driver n1 n2 n3 nb nat nq}

theorem at_diagonalized (h : Externals occ eigh level s) (r0 r : X nat → ℝ) : Diagonalized occ (s.at eigh level r0 r) :=
  C89_diagonalized occ eigh level { s with u := fun x => r x - r0 x } h.eig h.unitary h.number h.hamiltonian h.coupling

theorem at_path (h : Externals occ eigh level s) (hocc : StrictAnti occ) (hkT : 0 < s.kT) (r0 r : X nat → ℝ)
    {e : Mesh n1 n2 n3 → Fin nb → ℝ} {U : Mesh n1 n2 n3 → Matrix (Fin nb) (Fin nb) ℂ} {mu : ℝ}
    (hd : Diagonalized occ (s.move (center fun x => r x - r0 x) e U mu)) (entropy : ℝ → ℝ) :
    (s.at eigh level r0 r).freeEnergy occ entropy = (s.move (center fun x => r x - r0 x) e U mu).freeEnergy occ entropy ∧
    ∀ x, (s.at eigh level r0 r).jacobian occ x = (s.move (center fun x => r x - r0 x) e U mu).jacobian occ x := by
  have h0 := at_diagonalized h r0 r
  have e0 : s.at eigh level r0 r = s.move (center fun x => r x - r0 x) (s.at eigh level r0 r).e (s.at eigh level r0 r).U
      (s.at eigh level r0 r).mu := rfl
  rw [e0] at h0
  have hm := level_unique hocc hkT h0 hd
  rw [e0]
  rw [hm] at h0 ⊢
  exact ⟨energy_any h0 hd entropy, jacobian_any h0 hd⟩

/-- **C134**: the forces handed over to i-PI are minus the derivative of the energy with respect to the positions, given acoustic sum
rules, for any choice of eigenvectors by the diagonalization. -/
theorem C134_partial (h : Externals occ eigh level s) (hsum : SumRules s) (hocc : StrictAnti occ) (hkT : 0 < s.kT) (delta entropy : ℝ → ℝ)
    (ho : ∀ x, HasDerivAt occ (-delta x) x) (hs : ∀ x, HasDerivAt entropy (-x * delta x) x) (r0 : X nat → ℝ) (r : ℝ → X nat → ℝ)
    (r' : X nat → ℝ) (t : ℝ) (hr : Smooth occ s r0 r r' t) :
    HasDerivAt (fun τ => (s.call eigh level occ entropy r0 (r τ)).1) (-∑ x, (s.call eigh level occ entropy r0 (r t)).2.1 x * r' x) t := by
  obtain ⟨e, U, mu, e', U', mu', hp⟩ := hr
  have hd := C89_given (v := fun τ x => r τ x - r0 x) (v' := r') hp delta entropy hkT.ne' (fun _ _ => ho _) (fun _ _ => hs _) hsum.symm
    hsum.springs hsum.coupling hsum.forces
  have hE : (fun τ => (s.call eigh level occ entropy r0 (r τ)).1) = fun τ =>
      0.5 * (s.move (center fun x => r τ x - r0 x) (e τ) (U τ) (mu τ)).freeEnergy occ entropy := by
    funext τ
    exact congrArg (0.5 * ·) (at_path h hocc hkT r0 (r τ) (hp.diag τ) entropy).1
  rw [hE]
  refine (hd.const_mul 0.5).congr_deriv ?_
  rw [Finset.mul_sum, ← Finset.sum_neg_distrib]
  refine Finset.sum_congr rfl fun x _ => ?_
  have := (at_path h hocc hkT r0 (r t) (hp.diag t) entropy).2 x
  simp only [Driver.call, this]
  ring

/-- **C134**: motion according to the forces handed over conserves the sum of kinetic and (free) energy. -/
theorem C134_conserved (h : Externals occ eigh level s) (hsum : SumRules s) (hocc : StrictAnti occ) (hkT : 0 < s.kT) (delta entropy : ℝ → ℝ)
    (ho : ∀ x, HasDerivAt occ (-delta x) x) (hs : ∀ x, HasDerivAt entropy (-x * delta x) x) (r0 : X nat → ℝ) (M : Fin nat → ℝ)
    (hM : ∀ na, M na ≠ 0) (r v : ℝ → X nat → ℝ) (hr : ∀ t x, HasDerivAt (fun t => r t x) (v t x) t)
    (hv : ∀ t x, HasDerivAt (fun t => v t x) ((s.call eigh level occ entropy r0 (r t)).2.1 x / M x.1) t)
    (hp : ∀ t, Smooth occ s r0 r (v t) t) (t1 t2 : ℝ) :
    (∑ x, M x.1 * v t1 x ^ 2 / 2) + (s.call eigh level occ entropy r0 (r t1)).1 =
      (∑ x, M x.1 * v t2 x ^ 2 / 2) + (s.call eigh level occ entropy r0 (r t2)).1 := by
  have hd : ∀ t, HasDerivAt (fun t => (∑ x, M x.1 * v t x ^ 2 / 2) + (s.call eigh level occ entropy r0 (r t)).1) 0 t := by
    intro t
    have h1 : HasDerivAt (fun t => ∑ x, M x.1 * v t x ^ 2 / 2) (∑ x, (s.call eigh level occ entropy r0 (r t)).2.1 x * v t x) t := by
      refine HasDerivAt.fun_sum fun x _ => ?_
      refine ((((hv t x).pow 2).const_mul (M x.1)).div_const 2).congr_deriv ?_
      have := hM x.1
      field_simp
      norm_num
      ring
    refine (h1.add (C134_partial h hsum hocc hkT delta entropy ho hs r0 r (v t) t (hp t))).congr_deriv ?_
    ring
  exact is_const_of_deriv_eq_zero (fun t => (hd t).differentiableAt) (fun t => (hd t).deriv) t1 t2

end call

/-- **C134**: the forces handed over do not act on the centre of mass, given acoustic sum rules; the virial vanishes. -/
theorem C134_total (eigh : Matrix (Fin nb) (Fin nb) ℂ → (Fin nb → ℝ) × Matrix (Fin nb) (Fin nb) ℂ)
    (level : (Mesh n1 n2 n3 → Fin nb → ℝ) → ℝ) (occ entropy : ℝ → ℝ) (s : Driver n1 n2 n3 nb nat nq) (hsum : SumRules s)
    (r0 r : X nat → ℝ) (x : Fin 3) :
    ∑ na, (s.call eigh level occ entropy r0 r).2.1 (na, x) = 0 ∧ (s.call eigh level occ entropy r0 r).2.2 = 0 := by
  refine ⟨?_, rfl⟩
  have := C89_sum occ (s.at eigh level r0 r) hsum.springs hsum.coupling hsum.forces x
  simp only [Driver.call]
  rw [← Finset.mul_sum, this, mul_zero]

/-- **C134**: energy, forces and virial do not depend on the previous state of the driver and are invariant under translations. -/
theorem C134_stateless (eigh : Matrix (Fin nb) (Fin nb) ℂ → (Fin nb → ℝ) × Matrix (Fin nb) (Fin nb) ℂ)
    (level : (Mesh n1 n2 n3 → Fin nb → ℝ) → ℝ) (occ entropy : ℝ → ℝ) (s : Driver n1 n2 n3 nb nat nq) (r0 r r1 : X nat → ℝ) (v : Fin 3 → ℝ) :
    (s.at eigh level r0 r1).call eigh level occ entropy r0 (fun x => r x + v x.2) = s.call eigh level occ entropy r0 r := by
  have e : center (fun x => r x + v x.2 - r0 x) = center fun x => r x - r0 x := by
    rw [← C56_translation (fun x => r x - r0 x) v]
    congr 1
    funext x
    ring
  unfold Driver.call Driver.at Driver.diagonalize
  simp only [e]
  rfl

/-! ### Example: two atoms connected by a spring -/

/-- One orbital and two atoms, whose distance changes its energy. -/
noncomputable def dimer : Driver 1 1 1 1 2 0 where
  kT := 1
  n := 1
  q := fun _ _ => 0
  H0 := fun _ => 0
  C0 := fun _ x y => if x.2 = 0 ∧ y.2 = 0 then (if x.1 = y.1 then 1 else -1) else 0
  d0 := fun _ x _ => if x = (0, 0) then 1 else if x = (1, 0) then -1 else 0
  F0 := fun x => if x = (0, 0) then -1 else if x = (1, 0) then 1 else 0
  u := fun _ => 0
  e := fun _ _ => 0
  U := fun _ => 1
  mu := 0

/-- Distortion of the dimer. -/
noncomputable def stretch (t : ℝ) (x : X 2) : ℝ := if x = (0, 0) then t else if x = (1, 0) then -t else 0

theorem sum_X2 {β : Type} [AddCommMonoid β] (f : X 2 → β) : ∑ x, f x = f (0, 0) + f (0, 1) + f (0, 2) + (f (1, 0) + f (1, 1) + f (1, 2)) := by
  rw [Fintype.sum_prod_type, Fin.sum_univ_two, Fin.sum_univ_three, Fin.sum_univ_three]

theorem center_stretch (t : ℝ) : center (stretch t) = stretch t := by
  funext ⟨na, x⟩
  unfold center stretch
  rw [Fin.sum_univ_two]
  fin_cases x <;> simp

theorem gauss_zero : Verif.Occ.gauss 0 = 1 / 2 := by
  have := Verif.Occ.C35_gauss.symm 0
  rw [neg_zero] at this
  linarith

theorem dimer_externals : Externals Verif.Occ.gauss (fun A : Matrix (Fin 1) (Fin 1) ℂ => (fun _ => (A 0 0).re, 1)) (fun e => e (0, 0, 0) 0) dimer where
  eig := fun A hA => by
    rw [Matrix.mul_one, Matrix.one_mul]
    ext i j
    rw [Subsingleton.elim i 0, Subsingleton.elim j 0, Matrix.diagonal_apply_eq]
    have : star (A 0 0) = A 0 0 := congrFun (congrFun hA 0) 0
    exact (Complex.conj_eq_iff_re.1 this).symm
  unitary := fun A _ => by simp
  number := fun e => by
    have h0 : ∀ k : Mesh 1 1 1, k = (0, 0, 0) := fun k => Subsingleton.elim _ _
    rw [Fintype.sum_eq_single (0, 0, 0) (fun k hk => absurd (h0 k) hk)]
    simp [gauss_zero, dimer]
  hamiltonian := fun k => by simp [dimer]
  coupling := fun x k => by
    simp only [dimer]
    split
    · simp
    · split <;> simp

theorem dimer_sumRules : SumRules dimer where
  symm := fun x y => by simp only [dimer, and_comm (a := x.2 = 0), eq_comm (a := x.1)]
  springs := fun x ⟨nb, y⟩ => by
    rw [Fin.sum_univ_two]
    fin_cases nb <;> fin_cases x <;> fin_cases y <;> simp [dimer]
  coupling := fun x k => by
    rw [Fin.sum_univ_two]
    fin_cases x <;> simp [dimer]
  forces := fun x => by
    rw [Fin.sum_univ_two]
    fin_cases x <;> simp [dimer]

theorem dimer_H (t : ℝ) (e : Mesh 1 1 1 → Fin 1 → ℝ) (U : Mesh 1 1 1 → Matrix (Fin 1) (Fin 1) ℂ) (mu : ℝ) (k : Mesh 1 1 1) :
    (dimer.move (stretch t) e U mu).H k = diagonal fun _ => ((2 * t : ℝ) : ℂ) := by
  unfold Driver.H Driver.move
  simp only [sum_X2]
  simp only [dimer, stretch]
  ext i j
  rw [Subsingleton.elim i 0, Subsingleton.elim j 0]
  simp
  ring

theorem dimer_diagonalized (t : ℝ) : Diagonalized Verif.Occ.gauss (dimer.move (stretch t) (fun _ _ => 0) (fun _ => 1) (2 * t)) where
  eig := fun k => by
    rw [dimer_H]
    simp [Driver.move]
  unitary := fun k => by simp [Driver.move]
  number := by
    simp [Driver.move, gauss_zero, dimer]

theorem dimer_path (f : ℝ → ℝ) (f' t : ℝ) (hf : HasDerivAt f f' t) (r0 : X 2 → ℝ) :
    Smooth Verif.Occ.gauss dimer r0 (fun t x => r0 x + stretch (f t) x) (stretch f') t := by
  refine ⟨fun _ _ _ => 0, fun _ _ => 1, fun t => 2 * f t, fun _ _ => 0, fun _ => 0, 2 * f', ?_⟩
  have e : (fun t => center fun x => r0 x + stretch (f t) x - r0 x) = fun t => stretch (f t) := by
    funext t
    simp only [add_sub_cancel_left]
    exact center_stretch _
  rw [e, center_stretch]
  refine ⟨fun t => dimer_diagonalized (f t), fun x => ?_, fun k n => hasDerivAt_const _ _, fun k a n => hasDerivAt_const _ _, hf.const_mul 2⟩
  unfold stretch
  split
  · exact hf
  · split
    · exact hf.neg
    · exact hasDerivAt_const _ _

theorem dimer_jacobian (t : ℝ) (x : X 2) :
    (dimer.move (stretch t) (fun _ _ => 0) (fun _ => 1) (2 * t)).jacobian Verif.Occ.gauss x = stretch (2 * t) x := by
  obtain ⟨na, x⟩ := x
  unfold Driver.jacobian firstOrderU
  simp only [sum_X2]
  fin_cases na <;> fin_cases x <;> simp [Driver.move, dimer, stretch, gauss_zero] <;> ring

theorem dimer_forces (r0 : X 2 → ℝ) (t : ℝ) (x : X 2) : (dimer.call (fun A : Matrix (Fin 1) (Fin 1) ℂ => (fun _ => (A 0 0).re, 1))
    (fun e => e (0, 0, 0) 0) Verif.Occ.gauss Verif.Occ.gaussEntropy r0 fun x => r0 x + stretch t x).2.1 x = -stretch t x := by
  have e : (center fun x => r0 x + stretch t x - r0 x) = stretch t := by
    simp only [add_sub_cancel_left]
    exact center_stretch _
  have h := (at_path dimer_externals Verif.Occ.C35_gauss.anti one_pos r0 (fun x => r0 x + stretch t x) (e := fun _ _ => 0) (U := fun _ => 1)
    (mu := 2 * t) (by rw [e]; exact dimer_diagonalized t) Verif.Occ.gaussEntropy).2 x
  rw [e, dimer_jacobian] at h
  have e2 : stretch (2 * t) x = 2 * stretch t x := by
    unfold stretch
    split
    · rfl
    · split <;> ring
  simp only [Driver.call]
  rw [h, e2]
  ring

/-- Hypotheses of `C134_partial`, `C134_total` and `C134_conserved`: oscillation of the dimer. -/
example (r0 : X 2 → ℝ) (t1 t2 : ℝ) :=
  C134_conserved dimer_externals dimer_sumRules Verif.Occ.C35_gauss.anti one_pos Verif.Occ.gaussDelta Verif.Occ.gaussEntropy
    (fun x => (Verif.Occ.C36_gauss x).1) Verif.Occ.C37_gauss r0 (fun _ => 1) (fun _ => one_ne_zero) (fun t x => r0 x + stretch (Real.cos t) x)
    (fun t => stretch (-Real.sin t))
    (fun t x => by
      refine HasDerivAt.const_add _ ?_
      unfold stretch
      split
      · exact Real.hasDerivAt_cos t
      · split
        · exact (Real.hasDerivAt_cos t).neg
        · exact hasDerivAt_const _ _)
    (fun t x => by
      rw [dimer_forces, div_one]
      unfold stretch
      split
      · exact (Real.hasDerivAt_sin t).neg
      · split
        · exact (Real.hasDerivAt_sin t).neg.neg
        · rw [neg_zero]
          exact hasDerivAt_const _ _)
    (fun t => dimer_path Real.cos (-Real.sin t) t (Real.hasDerivAt_cos t) r0) t1 t2

/-! ### Violation without acoustic sum rule -/

/-- Two atoms without electrons; the first one is bound to its position. -/
noncomputable def bound : Driver 1 1 1 0 2 0 where
  kT := 1
  n := 0
  q := fun _ _ => 0
  H0 := fun _ => 0
  C0 := fun _ x y => if x = (0, 0) ∧ y = (0, 0) then 1 else 0
  d0 := fun _ _ _ => 0
  F0 := fun _ => 0
  u := fun _ => 0
  e := fun _ _ => 0
  U := fun _ => 1
  mu := 0

/-- **C134** (violation): without acoustic sum rules, the energy is invariant under translations, but the forces have a component along them;
hence they are not minus the derivative of the energy. Here, both atoms move by the same amount. -/
theorem C134_violated (occ entropy : ℝ → ℝ) : ∃ (s : Driver 1 1 1 0 2 0) (r r' : X 2 → ℝ), (∀ eigh level, Externals occ eigh level s) ∧
    (∀ x y, s.C0 0 x y = s.C0 0 y x) ∧ ∀ eigh level,
    HasDerivAt (fun t : ℝ => (s.call eigh level occ entropy (fun _ => 0) fun x => r x + t * r' x).1) 0 0 ∧
    ∑ x, (s.call eigh level occ entropy (fun _ => 0) r).2.1 x * r' x ≠ 0 := by
  refine ⟨bound, stretch 1, fun x => if x.2 = 0 then 1 else 0, fun eigh level => ?_, fun x y => ?_, fun eigh level => ⟨?_, ?_⟩⟩
  · exact ⟨fun A _ => Subsingleton.elim _ _, fun A _ => Subsingleton.elim _ _, fun e => by simp [bound], fun k => Subsingleton.elim _ _,
      fun x k => Subsingleton.elim _ _⟩
  · simp only [bound, and_comm]
  · have : (fun t : ℝ => (bound.call eigh level occ entropy (fun _ => 0) fun x => stretch 1 x + t * if x.2 = 0 then 1 else 0).1) =
        fun _ => (bound.call eigh level occ entropy (fun _ => 0) (stretch 1)).1 := by
      funext t
      have h := C134_stateless eigh level occ entropy bound (fun _ => 0) (stretch 1) (fun _ => 0) fun x => t * if x = 0 then 1 else 0
      exact congrArg Prod.fst h
    rw [this]
    exact hasDerivAt_const _ _
  · have e : (center fun x => stretch 1 x - 0) = stretch 1 := by
      simp only [sub_zero]
      exact center_stretch _
    simp only [Driver.call, Driver.at, Driver.diagonalize, Driver.jacobian, e]
    simp only [sum_X2]
    simp [bound, firstOrderU, stretch]
    norm_num

/-! ### Random displacements -/

/-- **C134**: random displacements have no collective component; no component exceeds twice the amplitude, reduced by the share of an atom,
and relative displacements do not exceed twice the amplitude. -/
theorem C134_random (amplitude : ℝ) (ha : 0 ≤ amplitude) (rand : X nat → ℝ) (h : ∀ x, 0 ≤ rand x ∧ rand x < 1) (na nb : Fin nat) (x : Fin 3) :
    ∑ na, randomDisplacements amplitude rand (na, x) = 0 ∧
    |randomDisplacements amplitude rand (na, x)| ≤ 2 * amplitude * (1 - 1 / nat) ∧
    |randomDisplacements amplitude rand (na, x) - randomDisplacements amplitude rand (nb, x)| ≤ 2 * amplitude := by
  have hn : 0 < nat := na.pos
  have hn' : (0 : ℝ) < nat := by exact_mod_cast hn
  set w : X nat → ℝ := fun x => amplitude * (1 - 2 * rand x) with hw
  have hb : ∀ x, |w x| ≤ amplitude := by
    intro x
    rw [hw, abs_mul, abs_of_nonneg ha]
    refine mul_le_of_le_one_right ha ?_
    rw [abs_le]
    constructor <;> linarith [(h x).1, (h x).2]
  refine ⟨C56_zero w hn x, ?_, ?_⟩
  · have e : center w (na, x) = (∑ nb, (w (na, x) - w (nb, x))) / nat := by
      unfold center
      rw [Finset.sum_sub_distrib, Finset.sum_const, Finset.card_univ, Fintype.card_fin, nsmul_eq_mul, sub_div, mul_div_cancel_left₀ _ hn'.ne']
    show |center w (na, x)| ≤ _
    rw [e, ← Finset.add_sum_erase _ _ (Finset.mem_univ na), sub_self, zero_add, abs_div, Nat.abs_cast, div_le_iff₀ hn']
    calc |∑ nb ∈ Finset.univ.erase na, (w (na, x) - w (nb, x))| ≤ ∑ nb ∈ Finset.univ.erase na, |w (na, x) - w (nb, x)| :=
          Finset.abs_sum_le_sum_abs _ _
      _ ≤ ∑ nb ∈ Finset.univ.erase na, 2 * amplitude := Finset.sum_le_sum fun nb _ => by
          calc |w (na, x) - w (nb, x)| ≤ |w (na, x)| + |w (nb, x)| := abs_sub _ _
            _ ≤ 2 * amplitude := by linarith [hb (na, x), hb (nb, x)]
      _ = (nat - 1) * (2 * amplitude) := by
          rw [Finset.sum_const, Finset.card_erase_of_mem (Finset.mem_univ _), Finset.card_univ, Fintype.card_fin, nsmul_eq_mul, Nat.cast_sub hn,
            Nat.cast_one]
      _ = _ := by
          field_simp
  · have := C56_relative w na nb x
    show |center w (na, x) - center w (nb, x)| ≤ _
    rw [this]
    calc |w (na, x) - w (nb, x)| ≤ |w (na, x)| + |w (nb, x)| := abs_sub _ _
      _ ≤ 2 * amplitude := by linarith [hb (na, x), hb (nb, x)]

/-- Random numbers. -/
example := C134_random (nat := 2) 0.01 (by norm_num) (fun x => if x.1 = 0 then 0 else 3 / 4) (fun x => by split <;> norm_num) 0 1 2

/-- **C134** (violation): the parameter described as maximum displacement can be exceeded, for any number of atoms above two. -/
theorem C134_random_violated (nat : Nat) (hn : 2 < nat) (amplitude : ℝ) (ha : 0 < amplitude) :
    ∃ (rand : X nat → ℝ) (x : X nat), (∀ x, 0 ≤ rand x ∧ rand x < 1) ∧ amplitude < |randomDisplacements amplitude rand x| := by
  have hn' : (3 : ℝ) ≤ nat := by exact_mod_cast hn
  have h0 : 0 < nat := by omega
  refine ⟨fun x => if x.1 = ⟨0, h0⟩ then 0 else 7 / 8, (⟨0, h0⟩, 0), fun x => by dsimp only; split <;> norm_num, ?_⟩
  have e : ∑ na : Fin nat, (if na = ⟨0, h0⟩ then (0 : ℝ) else 7 / 8) = 7 / 8 * (nat - 1) := by
    rw [← Finset.add_sum_erase _ _ (Finset.mem_univ (⟨0, h0⟩ : Fin nat)), if_pos rfl, zero_add,
      Finset.sum_congr rfl fun na hna => if_neg (Finset.ne_of_mem_erase hna), Finset.sum_const, Finset.card_erase_of_mem (Finset.mem_univ _),
      Finset.card_univ, Fintype.card_fin, nsmul_eq_mul, Nat.cast_sub h0, Nat.cast_one]
    ring
  refine lt_of_lt_of_le ?_ (le_abs_self _)
  unfold randomDisplacements center
  simp only [if_true]
  have e2 : ∑ na : Fin nat, amplitude * (1 - 2 * if na = ⟨0, h0⟩ then (0 : ℝ) else 7 / 8) = amplitude * (nat - 2 * (7 / 8 * (nat - 1))) := by
    rw [← e, ← Finset.mul_sum, Finset.sum_sub_distrib, ← Finset.mul_sum]
    simp
  rw [e2, lt_sub_iff_add_lt, ← lt_sub_iff_add_lt', div_lt_iff₀ (by linarith)]
  nlinarith

example := C134_random_violated 3 (by norm_num) 0.01 (by norm_num)

end Verif.MD
