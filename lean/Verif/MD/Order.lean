import Verif.MD.Relax
import Verif.MD.Symmetry

/-!
# Symmetry of relaxed structures and of trajectories (C192)

The model is that of `MD/Model.lean` and `MD/Call.lean`, symmetries of the crystal are those of `MD/Symmetry.lean`.
-/

namespace Verif.MD.Order

open Verif.Diag
open Verif.MD.Optimize
open Verif.MD.Bounds
open Verif.MD.Differentiable
open Verif.MD.Warm
open Verif.MD.Motion
open Verif.MD.Relax
open Matrix Filter Topology

variable {n1 n2 n3 nb nat nq : Nat} [NeZero n1] [NeZero n2] [NeZero n3]
  {occ delta entropy : ℝ → ℝ} {s : Driver n1 n2 n3 nb nat nq}
  {eigh : Matrix (Fin nb) (Fin nb) ℂ → (Fin nb → ℝ) × Matrix (Fin nb) (Fin nb) ℂ} {level : (Mesh n1 n2 n3 → Fin nb → ℝ) → ℝ}

theorem E_act [NeZero nb] (c : Crystal s.H0 (s.C0 0) (s.d0 0)) (hF : c.act s.F0 = s.F0) (h : Externals occ eigh level s) (hocc : StrictAnti occ)
    (hkT : 0 < s.kT) (u : X nat → ℝ) : E eigh level occ entropy s (c.act u) = E eigh level occ entropy s u := by
  have key := (C181_forces c hF h hocc hkT entropy (fun _ => 0) u (c.act u) (by simp only [sub_zero])).1
  rw [call_energy, call_energy] at key
  simp only [sub_zero] at key
  linarith

/-- **C192**: at sufficiently high temperature, the relaxed structure has all symmetries of the crystal, whatever the starting point of the relaxation. -/
theorem C192_relaxed [NeZero nb] {B κ : ℝ} (hkT : 0 < s.kT) (h1 : ∀ x, HasDerivAt occ (-delta x) x)
    (h3 : ∀ x, HasDerivAt entropy (-x * delta x) x) (h0 : ∀ x, 0 < delta x) (hcont : Continuous delta) (hB : ∀ x, delta x ≤ B)
    (hq : s.q 0 = fun _ => 0) (h : Externals occ eigh level s) (hC : ∀ x y, (s.C0 0 x y).re = (s.C0 0 y x).re)
    (hpos : ∀ w, κ * ∑ x, center w x ^ 2 ≤ form (s.C0 0) (center w)) (hT : 2 * B * total s 0 < κ * s.kT) {us : X nat → ℝ}
    (hus : center (G eigh level occ s us) = fun _ => 0) (c : Crystal s.H0 (s.C0 0) (s.d0 0)) (hF : c.act s.F0 = s.F0) :
    c.act (center us) = center us := by
  by_contra hne
  rw [← c.center_act] at hne
  have key := C189_unique (entropy := entropy) hkT h1 h3 h0 hcont hB hq h hC hpos hT hus hne
  rw [E_act c hF h (occ_anti h1 h0) hkT] at key
  exact lt_irrefl _ key

/-- **C192**: if a structure without forces breaks a symmetry of the crystal, such as a charge-density wave, the temperature is below a bound given by coupling
and unscreened force constants. -/
theorem C192_broken [NeZero nb] {B κ : ℝ} (hkT : 0 < s.kT) (h1 : ∀ x, HasDerivAt occ (-delta x) x)
    (h3 : ∀ x, HasDerivAt entropy (-x * delta x) x) (h0 : ∀ x, 0 < delta x) (hcont : Continuous delta) (hB : ∀ x, delta x ≤ B)
    (hq : s.q 0 = fun _ => 0) (h : Externals occ eigh level s) (hC : ∀ x y, (s.C0 0 x y).re = (s.C0 0 y x).re) (hκ : 0 < κ)
    (hpos : ∀ w, κ * ∑ x, center w x ^ 2 ≤ form (s.C0 0) (center w)) {us : X nat → ℝ}
    (hus : center (G eigh level occ s us) = fun _ => 0) (c : Crystal s.H0 (s.C0 0) (s.d0 0)) (hF : c.act s.F0 = s.F0)
    (hbroken : c.act (center us) ≠ center us) : s.kT ≤ 2 * B * total s 0 / κ := by
  by_contra hT
  push Not at hT
  rw [div_lt_iff₀ hκ, mul_comm s.kT] at hT
  exact hbroken (C192_relaxed (entropy := entropy) hkT h1 h3 h0 hcont hB hq h hC hpos hT hus c hF)

theorem G_act [NeZero nb] (c : Crystal s.H0 (s.C0 0) (s.d0 0)) (hF : c.act s.F0 = s.F0) (h : Externals occ eigh level s) (hocc : StrictAnti occ)
    (hkT : 0 < s.kT) (u : X nat → ℝ) : G eigh level occ s (c.act u) = c.act (G eigh level occ s u) := by
  have key := (C181_forces c hF h hocc hkT (fun _ => 0) (fun _ => 0) u (c.act u) (by simp only [sub_zero])).2
  funext x
  have hx := congrFun key x
  unfold Crystal.act at hx ⊢
  simp only [call_forces, sub_zero] at hx
  rw [Finset.sum_congr rfl fun y _ => mul_left_comm _ _ _, ← Finset.mul_sum] at hx
  linarith

/-- **C192**: the steps of a relaxation from symmetry-equivalent structures are symmetry equivalent, at any temperature and for any step size. -/
theorem C192_path [NeZero nb] (hkT : 0 < s.kT) (hocc : StrictAnti occ) (h : Externals occ eigh level s) (c : Crystal s.H0 (s.C0 0) (s.d0 0))
    (hF : c.act s.F0 = s.F0) (τ : ℝ) (u : X nat → ℝ) (i : Nat) :
    path eigh level occ s τ (c.act u) i = c.act (path eigh level occ s τ u i) := by
  induction i with
  | zero => rfl
  | succ i ih =>
    funext x
    show path eigh level occ s τ (c.act u) i x - τ * G eigh level occ s (path eigh level occ s τ (c.act u) i) x =
      c.act (fun x => path eigh level occ s τ u i x - τ * G eigh level occ s (path eigh level occ s τ u i) x) x
    rw [ih, G_act c hF h hocc hkT]
    unfold Crystal.act
    rw [Finset.mul_sum, ← Finset.sum_sub_distrib]
    exact Finset.sum_congr rfl fun y _ => by ring

/-- Symmetry-equivalent trajectory. -/
theorem newton_act [NeZero nb] (c : Crystal s.H0 (s.C0 0) (s.d0 0)) (hF : c.act s.F0 = s.F0) (h : Externals occ eigh level s) (hocc : StrictAnti occ)
    (hkT : 0 < s.kT) (r0 : X nat → ℝ) (M : Fin nat → ℝ) (hM : ∀ a, M (c.perm a) = M a) {r v : ℝ → X nat → ℝ}
    (hN : Newton eigh level occ entropy s r0 M r v) :
    Newton eigh level occ entropy s r0 M (fun t x => r0 x + c.act (fun x => r t x - r0 x) x) fun t => c.act (v t) := by
  refine ⟨fun t x => ?_, fun t x => ?_⟩
  · unfold Crystal.act
    refine HasDerivAt.const_add (r0 x) (HasDerivAt.fun_sum fun y _ => ?_)
    exact ((hN.1 t (c.perm.symm x.1, y)).sub_const _).const_mul _
  · have key := (C181_forces c hF h hocc hkT entropy r0 (r t) (fun x => r0 x + c.act (fun x => r t x - r0 x) x) (by
      funext x
      ring)).2
    rw [key]
    have hm : M (c.perm.symm x.1) = M x.1 := by
      have := hM (c.perm.symm x.1)
      rw [Equiv.apply_symm_apply] at this
      exact this.symm
    unfold Crystal.act
    rw [Finset.sum_div]
    refine HasDerivAt.fun_sum fun y _ => ?_
    have := (hN.2 t (c.perm.symm x.1, y)).const_mul (c.Q x.2 y)
    simp only [hm] at this
    rw [mul_div_assoc]
    exact this

/-- **C192**: symmetry-equivalent initial positions and velocities lead to symmetry-equivalent trajectories, at any temperature. -/
theorem C192_equivalent [NeZero nb] {B : ℝ} (hkT : 0 < s.kT) (h1 : ∀ x, HasDerivAt occ (-delta x) x)
    (h3 : ∀ x, HasDerivAt entropy (-x * delta x) x) (h0 : ∀ x, 0 < delta x) (hcont : Continuous delta) (hB : ∀ x, delta x ≤ B)
    (hq : s.q 0 = fun _ => 0) (h : Externals occ eigh level s) (hsum : SumRules s) (r0 : X nat → ℝ) (M : Fin nat → ℝ)
    (c : Crystal s.H0 (s.C0 0) (s.d0 0)) (hF : c.act s.F0 = s.F0) (hM : ∀ a, M (c.perm a) = M a)
    {r v r' v' : ℝ → X nat → ℝ} (hN : Newton eigh level occ entropy s r0 M r v) (hN' : Newton eigh level occ entropy s r0 M r' v') {t0 : ℝ}
    (hr : (fun x => r' t0 x - r0 x) = c.act fun x => r t0 x - r0 x) (hv : v' t0 = c.act (v t0)) (t : ℝ) :
    (fun x => r' t x - r0 x) = c.act (fun x => r t x - r0 x) ∧ v' t = c.act (v t) := by
  have key := C190_unique hkT h1 h3 h0 hcont hB hq h hsum r0 M hN' (newton_act c hF h (occ_anti h1 h0) hkT r0 M hM hN) (t0 := t0) (by
    funext x
    have := congrFun hr x
    show r' t0 x = r0 x + c.act (fun x => r t0 x - r0 x) x
    rw [← this]
    ring) hv
  refine ⟨?_, congrFun key.2 t⟩
  funext x
  rw [key.1]
  ring

/-- **C192**: if initial positions and velocities have a symmetry of the crystal, it is never broken in the course of a simulation, however unstable the
symmetric structure is. -/
theorem C192_kept [NeZero nb] {B : ℝ} (hkT : 0 < s.kT) (h1 : ∀ x, HasDerivAt occ (-delta x) x)
    (h3 : ∀ x, HasDerivAt entropy (-x * delta x) x) (h0 : ∀ x, 0 < delta x) (hcont : Continuous delta) (hB : ∀ x, delta x ≤ B)
    (hq : s.q 0 = fun _ => 0) (h : Externals occ eigh level s) (hsum : SumRules s) (r0 : X nat → ℝ) (M : Fin nat → ℝ)
    (c : Crystal s.H0 (s.C0 0) (s.d0 0)) (hF : c.act s.F0 = s.F0) (hM : ∀ a, M (c.perm a) = M a)
    {r v : ℝ → X nat → ℝ} (hN : Newton eigh level occ entropy s r0 M r v) {t0 : ℝ}
    (hr : c.act (fun x => r t0 x - r0 x) = fun x => r t0 x - r0 x) (hv : c.act (v t0) = v t0) (t : ℝ) :
    c.act (fun x => r t x - r0 x) = (fun x => r t x - r0 x) ∧ c.act (v t) = v t := by
  have key := C192_equivalent hkT h1 h3 h0 hcont hB hq h hsum r0 M c hF hM hN hN hr.symm hv.symm t
  exact ⟨key.1.symm, key.2.symm⟩

section examples
open Verif.Occ

/-- Exchange of two orbitals. -/
def swapped : Matrix (Fin 2) (Fin 2) ℂ := !![0, 1; 1, 0]

theorem exchange (a b : ℂ) : swapped * diagonal ![a, b] * swappedᴴ = diagonal ![b, a] := by
  ext m n
  rw [Matrix.mul_apply, Fin.sum_univ_two, Matrix.mul_diagonal, Matrix.mul_diagonal]
  fin_cases m <;> fin_cases n <;> simp [swapped, conjTranspose_apply]

/-- Reflection of two atoms with springs; the two orbitals, which prefer opposite displacements, are exchanged. -/
noncomputable def mirror (k : ℝ) : Crystal (trap k).H0 ((trap k).C0 0) ((trap k).d0 0) where
  perm := Equiv.refl _
  Q := diagonal ![-1, 1, 1]
  orthogonal := by
    rw [diagonal_transpose, diagonal_mul_diagonal, ← diagonal_one]
    congr 1
    funext x
    fin_cases x <;> simp
  o := { R := AddEquiv.refl _, V := fun _ => swapped, unitary := fun _ => by
           ext a b
           fin_cases a <;> fin_cases b <;> simp [swapped, Matrix.mul_apply, Fin.sum_univ_two, conjTranspose_apply], ham := fun k => by simp [trap, duo] }
  coupling := by
    intro x k
    rw [sum_X2]
    obtain ⟨a, x⟩ := x
    fin_cases a <;> fin_cases x <;> simp [trap, duo, exchange, diagonal_apply] <;> (ext m n; fin_cases m <;> fin_cases n <;> simp)
  springs := by
    intro a b x y
    simp only [Fin.sum_univ_three]
    fin_cases a <;> fin_cases b <;> fin_cases x <;> fin_cases y <;> simp [trap, Bounds.springs, diagonal_apply]

theorem mirror_forces (k : ℝ) : (mirror k).act (trap k).F0 = (trap k).F0 := by
  funext ⟨a, x⟩
  simp [Crystal.act, trap, duo]

/-- Stiff springs: without forces, there is no relative displacement of the two atoms in the direction preferred by the electrons. -/
example (k : ℝ) (hk : 2 * (1 / Real.sqrt Real.pi) * total duo 0 < 2 * k) (us : X 2 → ℝ)
    (hus : center (G eigh2 level2 gauss (trap k) us) = fun _ => 0) : us (0, 0) = us (1, 0) := by
  have key := C192_relaxed (s := trap k) (entropy := gaussEntropy) (κ := 2 * k) one_pos (fun x => (C36_gauss x).1) C37_gauss gaussDelta_pos
    gaussDelta_continuous delta_bounds.2 rfl (trap_externals k) (springs_symm k) (fun w => (springs_form k w).ge)
    (by rw [show (trap k).kT = 1 from rfl, mul_one]; exact hk) hus (mirror k) (mirror_forces k)
  have h0 := congrFun key (0, 0)
  simp [Crystal.act, mirror, center, Fin.sum_univ_two, Fin.sum_univ_three, diagonal] at h0
  linarith

/-- Any springs: there are trajectories where the two atoms never move in the direction preferred by the electrons. -/
example (k : ℝ) (r0 : X 2 → ℝ) : ∃ r v, (∀ x, v 0 x = if x = (0, 1) then 1 else 0) ∧
    Newton eigh2 level2 gauss gaussEntropy (trap k) r0 (fun _ => 1) r v ∧ ∀ t a, r t (a, 0) = r0 (a, 0) ∧ v t (a, 0) = 0 := by
  obtain ⟨r, v, h1, h2, h3⟩ := C190_exists (s := trap k) (entropy := gaussEntropy) one_pos (fun x => (C36_gauss x).1) C37_gauss gaussDelta_pos
    gaussDelta_continuous delta_bounds.2 rfl (trap_externals k) (trap_sum k) r0 (fun _ => 1) r0 fun x => if x = (0, 1) then 1 else 0
  refine ⟨r, v, fun x => congrFun h2 x, h3, fun t a => ?_⟩
  have key := C192_kept (s := trap k) one_pos (fun x => (C36_gauss x).1) C37_gauss gaussDelta_pos
    gaussDelta_continuous delta_bounds.2 rfl (trap_externals k) (trap_sum k) r0 (fun _ => 1) (mirror k) (mirror_forces k) (fun _ => rfl) h3 (t0 := 0)
    (by
      rw [h1]
      funext x
      simp [Crystal.act])
    (by
      rw [h2]
      funext ⟨a, x⟩
      fin_cases a <;> fin_cases x <;> simp [Crystal.act, mirror, Fin.sum_univ_three, diagonal]) t
  have k1 := congrFun key.1 (a, 0)
  have k2 := congrFun key.2 (a, 0)
  simp [Crystal.act, mirror, Fin.sum_univ_three, diagonal] at k1 k2
  exact ⟨by linarith, by linarith⟩

/-- Relaxations from mirrored structures. -/
example (k τ t : ℝ) (i : Nat) : path eigh2 level2 gauss (trap k) τ (stretch (-t)) i = (mirror k).act (path eigh2 level2 gauss (trap k) τ (stretch t) i) := by
  rw [← C192_path (s := trap k) one_pos C35_gauss.anti (trap_externals k) (mirror k) (mirror_forces k)]
  congr 1
  funext ⟨a, x⟩
  fin_cases a <;> fin_cases x <;> simp [Crystal.act, mirror, stretch, diagonal, Fin.sum_univ_three]

theorem trap_diagonalized (k t : ℝ) : Diagonalized gauss ((trap k).move (stretch t) (fun _ n => if n = 0 then 2 * t else -(2 * t)) (fun _ => 1) 0) :=
  ⟨(duo_diagonalized t).eig, (duo_diagonalized t).unitary, (duo_diagonalized t).number⟩

theorem trap_G (k t : ℝ) : G eigh2 level2 gauss (trap k) (stretch t) = stretch (2 * k * t + 2 * (gauss (2 * t) - gauss (-(2 * t)))) := by
  have e : (center fun x => stretch t x - 0) = stretch t := by
    simp only [sub_zero]
    exact center_stretch t
  have h := (at_path (trap_externals k) C35_gauss.anti one_pos (fun _ => 0) (stretch t)
    (e := fun _ n => if n = 0 then 2 * t else -(2 * t)) (U := fun _ => 1) (mu := 0) (by rw [e]; exact trap_diagonalized k t) gaussEntropy).2
  have h1 : (trap k).at eigh2 level2 (fun _ => 0) (stretch t) = solved eigh2 level2 (trap k) (stretch t) := by
    unfold Driver.at solved
    simp only [sub_zero]
    rfl
  funext x
  have h := h x
  rw [h1, e] at h
  unfold G
  rw [h]
  unfold Driver.jacobian firstOrderU
  rw [sum_X2]
  simp only [Fintype.sum_prod_type, Finset.univ_unique, Finset.sum_singleton, Fin.sum_univ_two]
  obtain ⟨a, x⟩ := x
  fin_cases a <;> fin_cases x <;> simp [Driver.move, trap, duo, stretch, Bounds.springs] <;> ring

/-- **C192**: relaxed structures can break symmetries of the crystal at lower temperature, even if the unscreened force constants are stable; the bound for the
temperature is needed. -/
theorem C192_wave : ∃ k : ℝ, 0 < k ∧ ∃ us, center (G eigh2 level2 gauss (trap k) us) = (fun _ => 0) ∧
    ∃ c : Crystal (trap k).H0 ((trap k).C0 0) ((trap k).d0 0), c.act (trap k).F0 = (trap k).F0 ∧ c.act (center us) ≠ center us := by
  refine ⟨gauss (-2) - gauss 2, sub_pos.2 (C35_gauss.anti (by norm_num)), stretch 1, ?_, mirror _, mirror_forces _, fun h => ?_⟩
  · rw [trap_G, center_stretch]
    have : 2 * (gauss (-2) - gauss 2) * 1 + 2 * (gauss (2 * 1) - gauss (-(2 * 1))) = 0 := by
      rw [mul_one]
      ring
    rw [this]
    funext x
    simp [stretch]
  · rw [center_stretch] at h
    have h0 := congrFun h (0, 0)
    simp [Crystal.act, mirror, stretch, diagonal] at h0
    norm_num at h0

/-- Hence, the coupling limits the springs of this molecule. -/
example : ∃ k : ℝ, 0 < k ∧ 1 ≤ 2 * (1 / Real.sqrt Real.pi) * total duo 0 / (2 * k) := by
  obtain ⟨k, hk, us, hus, c, hF, hne⟩ := C192_wave
  exact ⟨k, hk, C192_broken (s := trap k) (entropy := gaussEntropy) (κ := 2 * k) one_pos (fun x => (C36_gauss x).1) C37_gauss gaussDelta_pos
    gaussDelta_continuous delta_bounds.2 rfl (trap_externals k) (springs_symm k) (by linarith) (fun w => (springs_form k w).ge) hus c hF hne⟩

end examples

end Verif.MD.Order
