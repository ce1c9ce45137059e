import Verif.Phon.Model
import Verif.MD.Supercond
import Verif.MD.RepeatInit

/-!
# Size consistency of superconductivity (C156)
-/

namespace Verif.MD.Repeat

open Matrix
open Verif.Diag Verif.Diag.Derivatives

/-- `elphmod/md.py` 556: `elphmod.ph.sgnsqrt(w2.min())`, fourth result of `superconductivity`. -/
noncomputable def wmin {nat nq : Nat} (w2 : Fin (nq + 1) → X nat → ℝ) : ℝ := Verif.Phon.sgnsqrt (⨅ i : Fin (nq + 1) × X nat, w2 i.1 i.2)

/-! ### Functions of matrices -/

/-- Function of a matrix with eigenvectors `u` and eigenvalues `w`. -/
noncomputable def fn {ι : Type} [Fintype ι] [DecidableEq ι] (F : ℝ → ℝ) (u : Matrix ι ι ℂ) (w : ι → ℝ) : Matrix ι ι ℂ :=
  u * diagonal (fun i => (F (w i) : ℂ)) * uᴴ

theorem diagonal_fn {ι κ : Type} [Fintype ι] [DecidableEq ι] [Fintype κ] [DecidableEq κ] (F : ℝ → ℝ) (w : ι → ℝ) (v : κ → ℝ)
    (B : Matrix ι κ ℂ) (h : diagonal (fun i => (w i : ℂ)) * B = B * diagonal fun j => (v j : ℂ)) :
    diagonal (fun i => (F (w i) : ℂ)) * B = B * diagonal fun j => (F (v j) : ℂ) := by
  ext i j
  have h1 := congrFun (congrFun h i) j
  rw [Matrix.diagonal_mul, Matrix.mul_diagonal] at h1 ⊢
  by_cases hB : B i j = 0
  · rw [hB, mul_zero, zero_mul]
  · rw [mul_comm] at h1
    have h2 := Complex.ofReal_injective (mul_left_cancel₀ hB h1)
    rw [h2, mul_comm]

/-- Functions of two matrices are related in the same way as the matrices. -/
theorem fn_intertwine {ι κ : Type} [Fintype ι] [DecidableEq ι] [Fintype κ] [DecidableEq κ] (F : ℝ → ℝ) (D U : Matrix ι ι ℂ) (w : ι → ℝ)
    (E V : Matrix κ κ ℂ) (v : κ → ℝ) (Φ : Matrix ι κ ℂ) (hU : Uᴴ * U = 1) (hV : Vᴴ * V = 1) (h1 : D * U = U * diagonal fun i => (w i : ℂ))
    (h2 : E * V = V * diagonal fun j => (v j : ℂ)) (hΦ : D * Φ = Φ * E) : fn F U w * Φ = Φ * fn F V v := by
  have hU' : U * Uᴴ = 1 := mul_eq_one_comm.1 hU
  have hV' : V * Vᴴ = 1 := mul_eq_one_comm.1 hV
  have h3 : Uᴴ * D = diagonal (fun i => (w i : ℂ)) * Uᴴ := by
    calc Uᴴ * D = Uᴴ * D * (U * Uᴴ) := by rw [hU', Matrix.mul_one]
      _ = Uᴴ * (D * U) * Uᴴ := by simp only [Matrix.mul_assoc]
      _ = (Uᴴ * U) * diagonal (fun i => (w i : ℂ)) * Uᴴ := by rw [h1]; simp only [Matrix.mul_assoc]
      _ = _ := by rw [hU, Matrix.one_mul]
  have h4 : diagonal (fun i => (w i : ℂ)) * (Uᴴ * Φ * V) = Uᴴ * Φ * V * diagonal fun j => (v j : ℂ) := by
    calc diagonal (fun i => (w i : ℂ)) * (Uᴴ * Φ * V) = diagonal (fun i => (w i : ℂ)) * Uᴴ * Φ * V := by simp only [Matrix.mul_assoc]
      _ = Uᴴ * (D * Φ) * V := by rw [← h3]; simp only [Matrix.mul_assoc]
      _ = Uᴴ * Φ * (E * V) := by rw [hΦ]; simp only [Matrix.mul_assoc]
      _ = _ := by rw [h2]; simp only [Matrix.mul_assoc]
  have h5 := diagonal_fn F w v _ h4
  unfold fn
  calc U * diagonal (fun i => (F (w i) : ℂ)) * Uᴴ * Φ = U * (diagonal (fun i => (F (w i) : ℂ)) * (Uᴴ * Φ * V)) * Vᴴ := by
        simp only [Matrix.mul_assoc]
        rw [hV', Matrix.mul_one]
    _ = (U * Uᴴ) * Φ * V * diagonal (fun j => (F (v j) : ℂ)) * Vᴴ := by rw [h5]; simp only [Matrix.mul_assoc]
    _ = _ := by rw [hU', Matrix.one_mul]; simp only [Matrix.mul_assoc]

/-- Sum over modes. -/
theorem sum_modes {ι : Type} [Fintype ι] [DecidableEq ι] (F : ℝ → ℝ) (u : Matrix ι ι ℂ) (w : ι → ℝ) (a : ι → ℂ) :
    ((∑ i, ‖∑ x, a x * u x i‖ ^ 2 * F (w i) : ℝ) : ℂ) = ∑ x, ∑ y, a x * star (a y) * fn F u w x y := by
  have h1 : ∀ x y, fn F u w x y = ∑ i, u x i * F (w i) * star (u y i) := by
    intro x y
    unfold fn
    rw [Matrix.mul_apply]
    refine Finset.sum_congr rfl fun i _ => ?_
    rw [Matrix.mul_diagonal]
    rfl
  have h2 : ∀ x y, a x * star (a y) * fn F u w x y = ∑ i, a x * star (a y) * (u x i * F (w i) * star (u y i)) := by
    intro x y
    rw [h1, Finset.mul_sum]
  simp only [h2]
  rw [Complex.ofReal_sum]
  have h3 : ∀ x, ∑ y, ∑ i, a x * star (a y) * (u x i * F (w i) * star (u y i)) = ∑ i, ∑ y, a x * star (a y) * (u x i * F (w i) * star (u y i)) :=
    fun x => Finset.sum_comm
  simp only [h3]
  rw [Finset.sum_comm]
  refine Finset.sum_congr rfl fun i _ => ?_
  rw [Complex.ofReal_mul, Complex.ofReal_pow, ← Complex.mul_conj', map_sum, Finset.sum_mul_sum, Finset.sum_mul]
  refine Finset.sum_congr rfl fun x _ => ?_
  rw [Finset.sum_mul]
  refine Finset.sum_congr rfl fun y _ => ?_
  simp only [map_mul, Complex.star_def]
  ring

variable {n1 n2 n3 m1 m2 m3 nb nat nq nQ C : Nat} [NeZero n1] [NeZero n2] [NeZero n3] [NeZero m1] [NeZero m2] [NeZero m3]

/-- Coupling between all displacements at the Fermi level. -/
noncomputable def fermiPairs (kT : ℝ) (delta : ℝ → ℝ) (s : Driver n1 n2 n3 nb nat nq) (j : Mesh n1 n2 n3) (iq : Fin (nq + 1)) :
    Matrix (X nat) (X nat) ℂ := fun y x =>
  ∑ k, sum2 (fun a b => ((delta (b / kT) / kT * (delta (a / kT) / kT) : ℝ) : ℂ)) (s.e k) (s.e (k + j)) (s.U k) (s.U (k + j))
    (s.d0 iq y k)ᴴ (s.d0 iq x k)

/-- Function of the dynamical matrix divided by the masses. -/
noncomputable def fnMass (F : ℝ → ℝ) (M : Fin nat → ℝ) (u : Matrix (X nat) (X nat) ℂ) (w : X nat → ℝ) : Matrix (X nat) (X nat) ℂ := fun x y =>
  ((1 / √(M x.1) : ℝ) : ℂ) * fn F u w x y * ((1 / √(M y.1) : ℝ) : ℂ)

theorem enum_eq (F : ℝ → ℝ) (kT : ℝ) (delta : ℝ → ℝ) (M : Fin nat → ℝ) (s : Driver n1 n2 n3 nb nat nq) (j : Mesh n1 n2 n3) (iq : Fin (nq + 1))
    (hj : OnMesh (s.q iq) j) (w : X nat → ℝ) (u : Matrix (X nat) (X nat) ℂ) :
    ((∑ nu, fsEnum kT delta s.e (modeCoupling (s.d iq) M u) (s.q iq) nu * F (w nu) : ℝ) : ℂ) =
      (fnMass F M u w * fermiPairs kT delta s j iq).trace := by
  have e : ∑ nu, fsEnum kT delta s.e (modeCoupling (s.d iq) M u) (s.q iq) nu * F (w nu) =
        ∑ k, ∑ m, ∑ n, (∑ nu, ‖∑ x, (s.d iq x k m n * ((1 / √(M x.1) : ℝ) : ℂ)) * u x nu‖ ^ 2 * F (w nu)) *
          (delta (s.e (k + j) m / kT) / kT * (delta (s.e k n / kT) / kT)) := by
    unfold fsEnum modeCoupling
    simp only [slice_q _ _ j _ hj, Finset.sum_mul]
    rw [Finset.sum_comm]
    refine Finset.sum_congr rfl fun k _ => ?_
    rw [Finset.sum_comm]
    refine Finset.sum_congr rfl fun m _ => ?_
    rw [Finset.sum_comm]
    refine Finset.sum_congr rfl fun n _ => Finset.sum_congr rfl fun nu _ => ?_
    ring
  have e2 : ∀ x y, fnMass F M u w x y * fermiPairs kT delta s j iq y x = ∑ k, ∑ m, ∑ n,
      (s.d iq x k m n * ((1 / √(M x.1) : ℝ) : ℂ)) * star (s.d iq y k m n * ((1 / √(M y.1) : ℝ) : ℂ)) * fn F u w x y *
        ((delta (s.e (k + j) m / kT) / kT * (delta (s.e k n / kT) / kT) : ℝ) : ℂ) := by
    intro x y
    unfold fnMass fermiPairs sum2
    rw [Finset.mul_sum]
    refine Finset.sum_congr rfl fun k _ => ?_
    rw [Finset.sum_comm, Finset.mul_sum]
    refine Finset.sum_congr rfl fun m _ => ?_
    rw [Finset.mul_sum]
    refine Finset.sum_congr rfl fun n _ => ?_
    rw [d_coupling s iq j hj, ← star_mix]
    unfold coupling
    have e4 : star ((1 / √(M y.1) : ℝ) : ℂ) = ((1 / √(M y.1) : ℝ) : ℂ) := Complex.conj_ofReal _
    rw [star_mul, e4]
    ring
  have e3 : (fnMass F M u w * fermiPairs kT delta s j iq).trace = ∑ x, ∑ y, fnMass F M u w x y * fermiPairs kT delta s j iq y x := by
    rw [Matrix.trace]
    exact Finset.sum_congr rfl fun x _ => Matrix.mul_apply
  have swap : ∀ f : X nat → Mesh n1 n2 n3 → Fin nb → Fin nb → ℂ, ∑ y, ∑ k, ∑ m, ∑ n, f y k m n = ∑ k, ∑ m, ∑ n, ∑ y, f y k m n := by
    intro f
    rw [Finset.sum_comm]
    refine Finset.sum_congr rfl fun k _ => ?_
    rw [Finset.sum_comm]
    refine Finset.sum_congr rfl fun m _ => ?_
    rw [Finset.sum_comm]
  rw [e, e3]
  simp only [e2, swap]
  rw [Complex.ofReal_sum]
  refine Finset.sum_congr rfl fun k _ => ?_
  rw [Complex.ofReal_sum]
  refine Finset.sum_congr rfl fun m _ => ?_
  rw [Complex.ofReal_sum]
  refine Finset.sum_congr rfl fun n _ => ?_
  rw [Complex.ofReal_mul, sum_modes, Finset.sum_mul]
  refine Finset.sum_congr rfl fun x _ => ?_
  rw [Finset.sum_mul]

/-- Plane wave with the wave vector `q`. -/
def wave (χ : Fin C → Mesh n1 n2 n3 → ℂ) (q : Mesh n1 n2 n3) : Matrix (X (C * nat)) (X nat) ℂ := fun i y =>
  if (displ.symm i).2 = y then χ (displ.symm i).1 q else 0

omit [NeZero n1] [NeZero n2] [NeZero n3] in
theorem mul_wave (χ : Fin C → Mesh n1 n2 n3 → ℂ) (q : Mesh n1 n2 n3) (A : Matrix (X (C * nat)) (X (C * nat)) ℂ) (B : Matrix (X nat) (X nat) ℂ) :
    A * wave χ q = wave χ q * B ↔ ∀ r x y, ∑ t, χ t q * A (displ (r, x)) (displ (t, y)) = χ r q * B x y := by
  have h1 : ∀ r x y, (A * (wave χ q : Matrix (X (C * nat)) (X nat) ℂ)) (displ (r, x)) y = ∑ t, χ t q * A (displ (r, x)) (displ (t, y)) := by
    intro r x y
    rw [Matrix.mul_apply, sum_displ]
    refine Finset.sum_congr rfl fun t _ => ?_
    unfold wave
    simp only [Equiv.symm_apply_apply, mul_ite, mul_zero, Finset.sum_ite_eq', Finset.mem_univ, if_true]
    ring
  have h2 : ∀ r x y, ((wave χ q : Matrix (X (C * nat)) (X nat) ℂ) * B) (displ (r, x)) y = χ r q * B x y := by
    intro r x y
    rw [Matrix.mul_apply]
    unfold wave
    simp only [Equiv.symm_apply_apply, ite_mul, zero_mul, Finset.sum_ite_eq, Finset.mem_univ, if_true]
  constructor
  · intro h r x y
    rw [← h1, h, h2]
  · intro h
    ext i y
    obtain ⟨⟨r, x⟩, rfl⟩ := displ.surjective i
    rw [h1, h2, h]

/-- The trace of a folded matrix. -/
theorem trace_fold {fold : Mesh n1 n2 n3 → Mesh m1 m2 m3} {χ : Fin C → Mesh n1 n2 n3 → ℂ} (hf : Fold fold χ) (Q : Mesh m1 m2 m3)
    (A : Matrix (X (C * nat)) (X (C * nat)) ℂ) (B : Mesh n1 n2 n3 → Matrix (X nat) (X nat) ℂ)
    (h : ∀ q, fold q = Q → A * wave χ q = wave χ q * B q) : A.trace = ∑ q : {q // fold q = Q}, (B q).trace := by
  have hC : (C : ℂ) ≠ 0 := Nat.cast_ne_zero.2 hf.pos
  have h1 : ∀ q : {q // fold q = Q}, ∀ r x y, ∑ t, χ t q * A (displ (r, x)) (displ (t, y)) = χ r q * B q x y := fun q =>
    (mul_wave χ q A (B q)).1 (h q q.2)
  have h2 : ∀ r t (x y : X nat), C * A (displ (r, x)) (displ (t, y)) = ∑ q : {q // fold q = Q}, star (χ t q) * (χ r q * B q x y) := by
    intro r t x y
    simp only [← h1, Finset.mul_sum]
    rw [Finset.sum_comm]
    have h5 : ∀ s', ∑ q : {κ // fold κ = Q}, star (χ t q) * (χ s' q * A (displ (r, x)) (displ (s', y))) =
        if t = s' then (C : ℂ) * A (displ (r, x)) (displ (s', y)) else 0 := by
      intro s'
      simp only [← mul_assoc]
      rw [← Finset.sum_mul, hf.complete Q t s']
      split_ifs <;> simp
    simp only [h5]
    rw [Finset.sum_ite_eq, if_pos (Finset.mem_univ t)]
  have h3 : C * A.trace = C * ∑ q : {q // fold q = Q}, (B q).trace := by
    rw [Matrix.trace, sum_displ, Finset.mul_sum]
    have h4 : ∀ r : Fin C, C * ∑ x : X nat, A.diag (displ (r, x)) = ∑ q : {q // fold q = Q}, (B q).trace := by
      intro r
      simp only [Matrix.diag, Finset.mul_sum, h2]
      rw [Finset.sum_comm]
      refine Finset.sum_congr rfl fun q _ => ?_
      rw [Matrix.trace]
      refine Finset.sum_congr rfl fun x _ => ?_
      rw [← mul_assoc, hf.unit, one_mul]
      rfl
    simp only [h4]
    rw [Finset.sum_const, Finset.card_univ, Fintype.card_fin, nsmul_eq_mul]
  exact mul_left_cancel₀ hC h3

variable {fold : Mesh n1 n2 n3 → Mesh m1 m2 m3} {χ : Fin C → Mesh n1 n2 n3 → ℂ} (hf : Fold fold χ)
  {g : Mesh n1 n2 n3 → X nat → Mesh n1 n2 n3 → Matrix (Fin nb) (Fin nb) ℂ}
  {gS : Mesh m1 m2 m3 → Fin C × X nat → Mesh m1 m2 m3 → Matrix (Fin (C * nb)) (Fin (C * nb)) ℂ}
  {p : Fin (nq + 1) → Mesh n1 n2 n3} {P : Fin (nQ + 1) → Mesh m1 m2 m3}
  {unit : Driver n1 n2 n3 nb nat nq} {sup : Driver m1 m2 m3 (C * nb) (C * nat) nQ} (h : Repeats fold χ g gS p P unit sup)
  {occ : ℝ → ℝ} (h1 : Diagonalized occ unit) (h2 : Diagonalized occ sup) (hmu : sup.mu = unit.mu)

include hf h h1 h2 hmu

theorem pairs_wave (kT : ℝ) (delta : ℝ → ℝ) (iq : Fin (nq + 1)) (iQ : Fin (nQ + 1)) (hq : fold (p iq) = P iQ) :
    fermiPairs kT delta sup (P iQ) iQ * wave χ (p iq) = wave χ (p iq) * ((1 / C : ℂ) • fermiPairs kT delta unit (p iq) iq) := by
  rw [mul_wave]
  intro r x y
  have e := sum2_rel hf h h1 h2 hmu (fun a b => ((delta (b / kT) / kT * (delta (a / kT) / kT) : ℝ) : ℂ)) (p iq) r x y
  rw [hq] at e
  rw [Matrix.smul_apply, smul_eq_mul]
  unfold fermiPairs
  simp only [h.D0, h.d0]
  rw [e]
  ring

variable {M : Fin nat → ℝ} {MS : Fin (C * nat) → ℝ} (hM : ∀ r a, MS (split.symm (r, a)) = M a)
  {eps : ℝ} {delta : ℝ → ℝ} {w2 : Fin (nq + 1) → X nat → ℝ} {u : Fin (nq + 1) → Matrix (X nat) (X nat) ℂ}
  {w2S : Fin (nQ + 1) → X (C * nat) → ℝ} {uS : Fin (nQ + 1) → Matrix (X (C * nat)) (X (C * nat)) ℂ}
  (hu : ∀ iq, (u iq)ᴴ * u iq = 1) (huS : ∀ iQ, (uS iQ)ᴴ * uS iQ = 1)
  (e1 : ∀ iq, dynamical (unit.hessian eps occ delta iq) M * u iq = u iq * diagonal fun nu => (w2 iq nu : ℂ))
  (e2 : ∀ iQ, dynamical (sup.hessian eps occ delta iQ) MS * uS iQ = uS iQ * diagonal fun nu => (w2S iQ nu : ℂ))

include hM hu huS e1 e2

theorem fn_wave (F : ℝ → ℝ) (iq : Fin (nq + 1)) (iQ : Fin (nQ + 1)) (hq : fold (p iq) = P iQ) :
    fnMass F MS (uS iQ) (w2S iQ) * wave χ (p iq) = wave χ (p iq) * fnMass F M (u iq) (w2 iq) := by
  have hd : dynamical (sup.hessian eps occ delta iQ) MS * wave χ (p iq) = wave χ (p iq) * dynamical (unit.hessian eps occ delta iq) M := by
    rw [mul_wave]
    intro r x y
    unfold dynamical
    have e := C155_hessian hf h h1 h2 hmu eps delta iq iQ hq r x y
    have hM' : ∀ r (x : X nat), MS (displ (r, x)).1 = M x.1 := fun r x => hM r x.1
    simp only [hM', ← mul_assoc]
    rw [← e, Finset.sum_mul, Finset.sum_mul]
  have key := fn_intertwine F _ _ _ _ _ _ _ (huS iQ) (hu iq) (e2 iQ) (e1 iq) hd
  rw [mul_wave] at key ⊢
  intro r x y
  unfold fnMass
  have hM' : ∀ r (x : X nat), MS (displ (r, x)).1 = M x.1 := fun r x => hM r x.1
  simp only [hM']
  have e3 : ∀ t, χ t (p iq) * (((1 / √(M x.1) : ℝ) : ℂ) * fn F (uS iQ) (w2S iQ) (displ (r, x)) (displ (t, y)) * ((1 / √(M y.1) : ℝ) : ℂ)) =
      ((1 / √(M x.1) : ℝ) : ℂ) * (χ t (p iq) * fn F (uS iQ) (w2S iQ) (displ (r, x)) (displ (t, y))) * ((1 / √(M y.1) : ℝ) : ℂ) := fun t => by ring
  rw [Finset.sum_congr rfl fun t _ => e3 t, ← Finset.sum_mul, ← Finset.mul_sum, key r x y]
  ring

variable (hp : Function.Bijective p) (hP : Function.Bijective P)

include hp hP

/-- Sum over all modes of a function of their energies, weighted with the coupling at the Fermi level. -/
theorem enum_fold (kT : ℝ) (F : ℝ → ℝ) :
    ∑ iQ, ∑ nu, fsEnum kT delta sup.e (modeCoupling (sup.d iQ) MS (uS iQ)) (sup.q iQ) nu * F (w2S iQ nu) =
      (∑ iq, ∑ nu, fsEnum kT delta unit.e (modeCoupling (unit.d iq) M (u iq)) (unit.q iq) nu * F (w2 iq nu)) / C := by
  apply Complex.ofReal_injective
  rw [Complex.ofReal_div, Complex.ofReal_sum, Complex.ofReal_sum, Complex.ofReal_natCast]
  simp only [enum_eq F kT delta _ _ _ _ (h.q _), enum_eq F kT delta _ _ _ _ (h.Q _)]
  let ι := Equiv.ofBijective p hp
  have hι : ∀ q, p (ι.symm q) = q := fun q => ι.apply_symm_apply q
  have key : ∀ iQ, (fnMass F MS (uS iQ) (w2S iQ) * fermiPairs kT delta sup (P iQ) iQ).trace = ∑ q : {q // fold q = P iQ},
      ((1 / C : ℂ) • (fnMass F M (u (ι.symm q)) (w2 (ι.symm q)) * fermiPairs kT delta unit q (ι.symm q))).trace := by
    intro iQ
    refine trace_fold hf (P iQ) _ (fun q => (1 / C : ℂ) • (fnMass F M (u (ι.symm q)) (w2 (ι.symm q)) * fermiPairs kT delta unit q (ι.symm q))) ?_
    intro q hq
    have a1 := fn_wave hf h h1 h2 hmu hM hu huS e1 e2 F (ι.symm q) iQ (by rw [hι, hq])
    have a2 := pairs_wave hf h h1 h2 hmu kT delta (ι.symm q) iQ (by rw [hι, hq])
    rw [hι] at a1 a2
    rw [Matrix.mul_assoc, a2, ← Matrix.mul_assoc, a1, Matrix.mul_assoc, Matrix.mul_smul]
  simp only [key, Matrix.trace_smul, smul_eq_mul]
  let f : Mesh n1 n2 n3 → ℂ := fun q => 1 / C * (fnMass F M (u (ι.symm q)) (w2 (ι.symm q)) * fermiPairs kT delta unit q (ι.symm q)).trace
  have k1 : ∑ iQ, ∑ q : {q // fold q = P iQ}, f q = ∑ q, f q := by
    rw [← sum_fibres (fold := fold) f]
    exact Equiv.sum_comp (Equiv.ofBijective P hP) fun Q => ∑ q : {q // fold q = Q}, f q
  refine k1.trans ?_
  rw [← Equiv.sum_comp ι f, Finset.sum_div]
  refine Finset.sum_congr rfl fun iq _ => ?_
  show 1 / (C : ℂ) * (fnMass F M (u (ι.symm (ι iq))) (w2 (ι.symm (ι iq))) * fermiPairs kT delta unit (p iq) (ι.symm (ι iq))).trace = _
  rw [Equiv.symm_apply_apply]
  ring

omit hf h h1 h2 hmu hM hu huS e1 e2 hp hP in
/-- All pairs of states at the Fermi level. -/
theorem deno_all (kT : ℝ) (delta : ℝ → ℝ) (s : Driver n1 n2 n3 nb nat nq) {p : Fin (nq + 1) → Mesh n1 n2 n3} (hq : ∀ iq, OnMesh (s.q iq) (p iq))
    (hp : Function.Bijective p) : ∑ iq, fsDeno kT delta s.e (s.q iq) = (∑ k, ∑ n, delta (s.e k n / kT) / kT) ^ 2 := by
  have k1 : ∀ iq, fsDeno kT delta s.e (s.q iq) = ∑ k, (∑ m, delta (s.e (k + p iq) m / kT) / kT) * ∑ n, delta (s.e k n / kT) / kT := by
    intro iq
    unfold fsDeno
    simp only [slice_q _ _ (p iq) _ (hq iq)]
    refine Finset.sum_congr rfl fun k _ => ?_
    rw [Finset.sum_mul_sum]
  simp only [k1]
  rw [Finset.sum_comm, pow_two, Finset.mul_sum]
  refine Finset.sum_congr rfl fun k _ => ?_
  rw [← Finset.sum_mul]
  congr 1
  rw [← Equiv.sum_comp (Equiv.addLeft k) fun k => ∑ n, delta (s.e k n / kT) / kT]
  exact Equiv.sum_comp (Equiv.ofBijective p hp) fun j => ∑ m, delta (s.e (k + j) m / kT) / kT

/-- C156: effective coupling strength and average phonon energies of the supercell are those of the unit cell. -/
theorem C156_superconductivity (kT : ℝ) :
    sup.superconductivity eps kT delta MS w2S uS = unit.superconductivity eps kT delta M w2 u := by
  have hC : (C : ℝ) ≠ 0 := Nat.cast_ne_zero.2 hf.pos
  have hm : ((m1 * m2 * m3 : Nat) : ℝ) ≠ 0 :=
    Nat.cast_ne_zero.2 (Nat.mul_ne_zero (Nat.mul_ne_zero (NeZero.ne m1) (NeZero.ne m2)) (NeZero.ne m3))
  have kd : ∑ iQ, fsDeno kT delta sup.e (sup.q iQ) = ∑ iq, fsDeno kT delta unit.e (unit.q iq) := by
    rw [deno_all kT delta sup h.Q hP, deno_all kT delta unit h.q hp, sum0_rel hf h h1 h2 hmu fun x => delta (x / kT) / kT]
  have sums : ∀ F : ℝ → ℝ, ∑ i : Fin (nQ + 1) × X (C * nat), modeWeight eps (fun i : Fin (nQ + 1) × X (C * nat) =>
        fsEnum kT delta sup.e (modeCoupling (sup.d i.1) MS (uS i.1)) (sup.q i.1) i.2 / ∑ iQ, fsDeno kT delta sup.e (sup.q iQ))
        (fun i => w2S i.1 i.2) i * F (w2S i.1 i.2) =
      (∑ i : Fin (nq + 1) × X nat, modeWeight eps (fun i : Fin (nq + 1) × X nat =>
        fsEnum kT delta unit.e (modeCoupling (unit.d i.1) M (u i.1)) (unit.q i.1) i.2 / ∑ iq, fsDeno kT delta unit.e (unit.q iq))
        (fun i => w2 i.1 i.2) i * F (w2 i.1 i.2)) / C := by
    intro F
    rw [Fintype.sum_prod_type, Fintype.sum_prod_type, kd]
    generalize ∑ iq, fsDeno kT delta unit.e (unit.q iq) = N
    have k2 : ∀ (a b : ℝ), (if b < eps then 0 else a / N / b) * F b = a * (fun x => if x < eps then 0 else F x / x / N) b := by
      intro a b
      dsimp only
      split
      · ring
      · ring
    unfold modeWeight
    simp only [k2]
    exact enum_fold hf h h1 h2 hmu hM hu huS e1 e2 hp hP kT fun x => if x < eps then 0 else F x / x / N
  unfold Driver.superconductivity
  rw [averages_eq, averages_eq]
  have s1 := sums fun _ => 1
  have s2 := sums fun x => Real.log x / 2
  have s3 := sums fun x => x
  simp only [mul_one, mul_div_assoc'] at s1 s2 s3
  rw [s1, s2, s3, sum0_rel hf h h1 h2 hmu fun x => delta (x / kT), h.card, Nat.cast_mul C]
  generalize ((m1 * m2 * m3 : Nat) : ℝ) = x at hm ⊢
  rw [div_div_div_cancel_right₀ hC, div_div_div_cancel_right₀ hC]
  refine Prod.ext ?_ rfl
  dsimp only
  field_simp

omit hp hP in
theorem fn_wave_plain (F : ℝ → ℝ) (iq : Fin (nq + 1)) (iQ : Fin (nQ + 1)) (hq : fold (p iq) = P iQ) :
    fn F (uS iQ) (w2S iQ) * wave χ (p iq) = wave χ (p iq) * fn F (u iq) (w2 iq) := by
  have hd : dynamical (sup.hessian eps occ delta iQ) MS * wave χ (p iq) = wave χ (p iq) * dynamical (unit.hessian eps occ delta iq) M := by
    rw [mul_wave]
    intro r x y
    unfold dynamical
    have e := C155_hessian hf h h1 h2 hmu eps delta iq iQ hq r x y
    have hM' : ∀ r (x : X nat), MS (displ (r, x)).1 = M x.1 := fun r x => hM r x.1
    simp only [hM', ← mul_assoc]
    rw [← e, Finset.sum_mul, Finset.sum_mul]
  exact fn_intertwine F _ _ _ _ _ _ _ (huS iQ) (hu iq) (e2 iQ) (e1 iq) hd

/-- C156: sums of any function over all squared phonon energies are the same; the supercell has the same phonon energies with the same
multiplicities. -/
theorem C156_modes (F : ℝ → ℝ) : ∑ iQ, ∑ nu, F (w2S iQ nu) = ∑ iq, ∑ nu, F (w2 iq nu) := by
  have tr : ∀ {ι : Type} [Fintype ι] [DecidableEq ι] (v : Matrix ι ι ℂ) (w : ι → ℝ), vᴴ * v = 1 →
      (fn F v w).trace = ((∑ nu, F (w nu) : ℝ) : ℂ) := by
    intro ι _ _ v w hv
    unfold fn
    rw [Matrix.trace_mul_comm, ← Matrix.mul_assoc, hv, Matrix.one_mul, Matrix.trace_diagonal, Complex.ofReal_sum]
  apply Complex.ofReal_injective
  rw [Complex.ofReal_sum, Complex.ofReal_sum]
  rw [Finset.sum_congr rfl fun iQ _ => (tr (uS iQ) (w2S iQ) (huS iQ)).symm, Finset.sum_congr rfl fun iq _ => (tr (u iq) (w2 iq) (hu iq)).symm]
  let ι := Equiv.ofBijective p hp
  have hι : ∀ q, p (ι.symm q) = q := fun q => ι.apply_symm_apply q
  have key : ∀ iQ, (fn F (uS iQ) (w2S iQ)).trace = ∑ q : {q // fold q = P iQ}, (fn F (u (ι.symm q)) (w2 (ι.symm q))).trace := by
    intro iQ
    refine trace_fold hf (P iQ) _ (fun q => fn F (u (ι.symm q)) (w2 (ι.symm q))) ?_
    intro q hq
    have a1 := fn_wave_plain hf h h1 h2 hmu hM hu huS e1 e2 F (ι.symm q) iQ (by rw [hι, hq])
    rw [hι] at a1
    exact a1
  simp only [key]
  let f : Mesh n1 n2 n3 → ℂ := fun q => (fn F (u (ι.symm q)) (w2 (ι.symm q))).trace
  have k1 : ∑ iQ, ∑ q : {q // fold q = P iQ}, f q = ∑ q, f q := by
    rw [← sum_fibres (fold := fold) f]
    exact Equiv.sum_comp (Equiv.ofBijective P hP) fun Q => ∑ q : {q // fold q = Q}, f q
  refine k1.trans ?_
  rw [← Equiv.sum_comp ι f]
  refine Finset.sum_congr rfl fun iq _ => ?_
  show (fn F (u (ι.symm (ι iq))) (w2 (ι.symm (ι iq)))).trace = _
  rw [Equiv.symm_apply_apply]

/-- C156: the minimum phonon energy is the same. -/
theorem C156_minimum : wmin w2S = wmin w2 := by
  have h4 : ∀ {a b : Nat} (w : Fin a → X b → ℝ) (x : ℝ), (∃ i nu, w i nu = x) ↔ ∑ i, ∑ nu, (if w i nu = x then (1 : ℝ) else 0) ≠ 0 := by
    intro a b w x
    have hn : ∀ i nu, (0 : ℝ) ≤ if w i nu = x then 1 else 0 := fun i nu => by split <;> norm_num
    rw [ne_eq, Finset.sum_eq_zero_iff_of_nonneg fun i _ => Finset.sum_nonneg fun nu _ => hn i nu]
    simp only [Finset.sum_eq_zero_iff_of_nonneg fun nu _ => hn _ nu, Finset.mem_univ, true_implies, ite_eq_right_iff, one_ne_zero, imp_false]
    push Not
    rfl
  have hset : (Set.range fun i : Fin (nQ + 1) × X (C * nat) => w2S i.1 i.2) = Set.range fun i : Fin (nq + 1) × X nat => w2 i.1 i.2 := by
    ext x
    simp only [Set.mem_range, Prod.exists]
    have h5 := C156_modes hf h h1 h2 hmu hM hu huS e1 e2 hp hP fun y => if y = x then 1 else 0
    have h6 := h4 w2S x
    have h7 := h4 w2 x
    rw [h5, ← h7] at h6
    simpa only [Prod.exists] using h6
  unfold wmin iInf
  rw [hset]

omit hf h h1 h2 hmu hM hu huS e1 e2 hp hP in
/-- Hypotheses of `C156_superconductivity` for the driver of `example_driver`. -/
example (delta : ℝ → ℝ) : ∃ (C : Nat) (fold : Mesh 2 1 1 → Mesh 1 1 1) (χ : Fin C → Mesh 2 1 1 → ℂ)
    (g : Mesh 2 1 1 → X 1 → Mesh 2 1 1 → Matrix (Fin 1) (Fin 1) ℂ)
    (gS : Mesh 1 1 1 → Fin C × X 1 → Mesh 1 1 1 → Matrix (Fin (C * 1)) (Fin (C * 1)) ℂ) (p : Fin 2 → Mesh 2 1 1) (P : Fin 1 → Mesh 1 1 1)
    (unit : Driver 2 1 1 1 1 1) (sup : Driver 1 1 1 (C * 1) (C * 1) 0), Fold fold χ ∧ Repeats fold χ g gS p P unit sup ∧
    Diagonalized Verif.Occ.fermi unit ∧ Diagonalized Verif.Occ.fermi sup ∧ sup.mu = unit.mu ∧ Function.Bijective p ∧ Function.Bijective P ∧
    (∀ iq, dynamical (unit.hessian 0 Verif.Occ.fermi delta iq) (fun _ => 1) * 1 = 1 * diagonal fun _ => ((4 : ℝ) : ℂ)) ∧
    ∀ iQ, dynamical (sup.hessian 0 Verif.Occ.fermi delta iQ) (fun _ => 1) * 1 = 1 * diagonal fun _ => ((4 : ℝ) : ℂ) := by
  obtain ⟨s, fold, l, lS, ph, ren, phS, renS, cS, p, P, eigh, level, eighS, levelS, unit, sup, hs, hf, hl, hlS, hphn, hren, hphS, hrenS, hinj,
    hinj', hcS, hp, hP, hunit, hsup, hq2r, h1, h2, hmu, hall, hbp, h4⟩ := example_driver delta
  have hD : Verif.Lattice.detSpec (2, 0, 0) (0, 1, 0) (0, 0, 1) ≠ 0 := by decide
  have h := C155_init hD hs hf hl hlS hren hrenS hinj hinj' hcS hp hP hunit hsup hq2r h1 h2 hmu unit.u unit.e unit.U unit.mu sup.e sup.U sup.mu
  have hu1 : unit.u = fun _ => 0 := by
    rw [hunit]
    exact center_zero
  have hu2 : sup.u = fun _ => 0 := by
    rw [hsup]
    exact center_zero
  have hsup' : sup.move (fun i => unit.u (displ.symm i).2) sup.e sup.U sup.mu = sup := by
    unfold Driver.move
    rw [hu1, ← hu2]
  have hunit' : unit.move unit.u unit.e unit.U unit.mu = unit := rfl
  rw [hsup', hunit'] at h
  have k1 : ∀ iq x y, unit.hessian 0 Verif.Occ.fermi delta iq x y = if x = y then 4 else 0 := by
    intro iq x y
    rw [← h4 iq, hunit]
    unfold driver
    rw [C55_hessian]
  refine ⟨_, fold, cellPhase s, gUnit local3, gSuper cS, p, P, unit, sup, folds_fold hD hs hf, h, h1, h2, hmu, hbp,
    ⟨fun _ _ _ => Subsingleton.elim _ _, fun Q => ⟨0, Subsingleton.elim _ _⟩⟩, ?_, ?_⟩
  · intro iq
    rw [Matrix.mul_one, Matrix.one_mul]
    ext x y
    unfold dynamical
    rw [k1]
    simp [diagonal_apply]
  · intro iQ
    rw [Matrix.mul_one, Matrix.one_mul]
    ext i j
    unfold dynamical
    rw [C155_hessian_unique (folds_fold hD hs hf) h h1 h2 hmu 0 delta iQ (hall iQ) (fun i j => if i = j then 4 else 0)]
    · simp [diagonal_apply]
    · intro iq _ r x y
      rw [k1]
      simp only [EmbeddingLike.apply_eq_iff_eq, Prod.mk.injEq, ite_and, mul_ite, mul_zero, Finset.sum_ite_eq, Finset.mem_univ, if_true]

end Verif.MD.Repeat
