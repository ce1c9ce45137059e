import Verif.MD.Motion

/-!
# Accuracy and convergence of structural relaxation (C191)

The model is that of `MD/Model.lean` and `MD/Optimize.lean`. Scripts hand over `free_energy` and `jacobian` to `scipy.optimize.minimize`, which stops when
forces are small; the theorems bound the error of any structure with small forces.
-/

namespace Verif.MD.Relax

open Verif.Diag
open Verif.MD.Optimize
open Verif.MD.Bounds
open Verif.MD.Differentiable
open Verif.MD.Warm
open Verif.MD.Motion
open Matrix Filter Topology

variable {n1 n2 n3 nb nat nq : Nat} [NeZero n1] [NeZero n2] [NeZero n3]
  {occ delta entropy : ℝ → ℝ} {s : Driver n1 n2 n3 nb nat nq}
  {eigh : Matrix (Fin nb) (Fin nb) ℂ → (Fin nb → ℝ) × Matrix (Fin nb) (Fin nb) ℂ} {level : (Mesh n1 n2 n3 → Fin nb → ℝ) → ℝ}

theorem sq_norm (u : X nat → ℝ) : ∑ x, u x ^ 2 ≤ Fintype.card (X nat) * ‖u‖ ^ 2 := by
  have : ∑ x, u x ^ 2 ≤ ∑ _x : X nat, ‖u‖ ^ 2 := Finset.sum_le_sum fun z _ => by
    rw [← sq_abs]
    exact pow_le_pow_left₀ (abs_nonneg _) (norm_le_pi_norm u z) 2
  rwa [Finset.sum_const, Finset.card_univ, nsmul_eq_mul] at this

/-- Change of the free energy to first order. -/
noncomputable def slope (eigh : Matrix (Fin nb) (Fin nb) ℂ → (Fin nb → ℝ) × Matrix (Fin nb) (Fin nb) ℂ) (level : (Mesh n1 n2 n3 → Fin nb → ℝ) → ℝ)
    (occ : ℝ → ℝ) (s : Driver n1 n2 n3 nb nat nq) (u : X nat → ℝ) : (X nat → ℝ) →L[ℝ] ℝ :=
  ∑ x, center (G eigh level occ s u) x • ContinuousLinearMap.proj x

theorem sum_center' (g w : X nat → ℝ) : ∑ x, g x * center w x = ∑ x, center g x * w x := by
  rw [sum_center]
  have h := sum_center w g
  rw [Finset.sum_congr rfl fun x _ => mul_comm (w x) (center g x), Finset.sum_congr rfl fun x _ => mul_comm (center w x) (center g x)] at h
  exact h.symm

/-- **C191**: the free energy is differentiable as a function of all displacements at once. -/
theorem C191_derivative [NeZero nb] {B : ℝ} (hkT : 0 < s.kT) (h1 : ∀ x, HasDerivAt occ (-delta x) x)
    (h3 : ∀ x, HasDerivAt entropy (-x * delta x) x) (h0 : ∀ x, 0 < delta x) (hcont : Continuous delta) (hB : ∀ x, delta x ≤ B)
    (hq : s.q 0 = fun _ => 0) (h : Externals occ eigh level s) (hC : ∀ x y, (s.C0 0 x y).re = (s.C0 0 y x).re) (u : X nat → ℝ) :
    HasFDerivAt (E eigh level occ entropy s) (slope eigh level occ s u) u := by
  have hB0 : 0 ≤ B := (h0 0).le.trans (hB 0)
  have hL := stiff_pos (s := s) hB0 hkT
  have hO : (fun y => E eigh level occ entropy s y - E eigh level occ entropy s u - slope eigh level occ s u (y - u)) =O[𝓝 u]
      fun y => ‖y - u‖ ^ 2 := by
    refine Asymptotics.IsBigO.of_bound (stiff B s / 2 * Fintype.card (X nat)) (Eventually.of_forall fun y => ?_)
    have key := remainder (entropy := entropy) hkT h1 h3 h0 hcont hB hq h hC u fun x => y x - u x
    have e : (fun x => u x + (y x - u x)) = y := by
      funext x
      ring
    have e2 : slope eigh level occ s u (y - u) = ∑ x, G eigh level occ s u x * center (fun x => y x - u x) x := by
      rw [sum_center']
      simp [slope]
    rw [e, ← e2] at key
    rw [Real.norm_eq_abs, Real.norm_of_nonneg (sq_nonneg _), mul_assoc]
    exact key.trans (mul_le_mul_of_nonneg_left ((size_le _).trans (sq_norm (y - u))) (by linarith))
  have h2 := hO.hasFDerivAt (𝕜 := ℝ) one_lt_two
  have h4 : HasFDerivAt (fun y => E eigh level occ entropy s u + slope eigh level occ s u (y - u)) (slope eigh level occ s u) u := by
    simp only [map_sub]
    exact ((slope eigh level occ s u).hasFDerivAt.sub_const (slope eigh level occ s u u)).const_add (E eigh level occ entropy s u)
  have h5 := h2.add h4
  rw [zero_add] at h5
  refine h5.congr_of_eventuallyEq (Eventually.of_forall fun y => ?_)
  simp only [Pi.add_apply]
  ring

/-- Strong convexity. -/
theorem convex [NeZero nb] {B c : ℝ} (hkT : 0 < s.kT) (h1 : ∀ x, HasDerivAt occ (-delta x) x)
    (h3 : ∀ x, HasDerivAt entropy (-x * delta x) x) (h0 : ∀ x, 0 < delta x) (hcont : Continuous delta) (hB : ∀ x, delta x ≤ B)
    (hq : s.q 0 = fun _ => 0) (h : Externals occ eigh level s) (hC : ∀ x y, (s.C0 0 x y).re = (s.C0 0 y x).re)
    (hpos : ∀ w, c * size w ≤ form (s.C0 0) (center w)) (u w : X nat → ℝ) :
    E eigh level occ entropy s u + ∑ x, center (G eigh level occ s u) x * center w x + (c - 2 * B / s.kT * total s 0) / 2 * size w ≤
      E eigh level occ entropy s fun x => u x + w x := by
  have hB0 : 0 ≤ B := (h0 0).le.trans (hB 0)
  have k1 := C189_tangent hkT h1 h3 h0 hcont hB hq h hC u w
  rw [sum_center] at k1
  have f4 := mul_le_mul_of_nonneg_left (strength_le s 0 fun x => ((center w x : ℝ) : ℂ)) (show 0 ≤ 2 * B / s.kT by positivity)
  rw [norm_real] at f4
  have f5 := hpos w
  unfold size at *
  linarith

/-- **C191**: if the unscreened crystal is stable and the temperature sufficiently high, small forces mean that the structure is close to the relaxed one,
as is its free energy, however the structure has been obtained. -/
theorem C191_error [NeZero nb] {B c κ : ℝ} (hkT : 0 < s.kT) (h1 : ∀ x, HasDerivAt occ (-delta x) x)
    (h3 : ∀ x, HasDerivAt entropy (-x * delta x) x) (h0 : ∀ x, 0 < delta x) (hcont : Continuous delta) (hB : ∀ x, delta x ≤ B)
    (hq : s.q 0 = fun _ => 0) (h : Externals occ eigh level s) (hC : ∀ x y, (s.C0 0 x y).re = (s.C0 0 y x).re)
    (hpos : ∀ w, c * size w ≤ form (s.C0 0) (center w)) (hκ : κ = c - 2 * B / s.kT * total s 0) (hκ0 : 0 < κ) {us : X nat → ℝ}
    (hus : center (G eigh level occ s us) = fun _ => 0) (u : X nat → ℝ) :
    κ ^ 2 * size (fun x => u x - us x) ≤ size (G eigh level occ s u) ∧
      2 * κ * (E eigh level occ entropy s u - E eigh level occ entropy s us) ≤ size (G eigh level occ s u) := by
  have key := convex (eigh := eigh) (level := level) (entropy := entropy) hkT h1 h3 h0 hcont hB hq h hC hpos
  rw [← hκ] at key
  have k1 := key us fun x => u x - us x
  have k2 := key u fun x => us x - u x
  have e1 : (fun x => us x + (u x - us x)) = u := by
    funext x
    ring
  have e2 : (fun x => u x + (us x - u x)) = us := by
    funext x
    ring
  rw [e1, hus] at k1
  rw [e2] at k2
  simp only [zero_mul, Finset.sum_const_zero, add_zero] at k1
  have e3 : center (fun x => us x - u x) = fun x => -center (fun x => u x - us x) x := by
    rw [center_diff, center_diff]
    funext x
    ring
  have e4 : size (fun x => us x - u x) = size fun x => u x - us x := by
    unfold size
    rw [e3]
    exact Finset.sum_congr rfl fun x _ => neg_sq _
  rw [e4, e3] at k2
  set g := center (G eigh level occ s u) with hg
  set D := size fun x => u x - us x with hD
  have hD0 : 0 ≤ D := size_nonneg _
  have e5 : ∑ x, g x * -center (fun x => u x - us x) x = -∑ x, g x * center (fun x => u x - us x) x := by
    rw [← Finset.sum_neg_distrib]
    exact Finset.sum_congr rfl fun x _ => mul_neg _ _
  rw [e5] at k2
  set p := ∑ x, g x * center (fun x => u x - us x) x with hp
  have hG : size (G eigh level occ s u) = ∑ x, g x ^ 2 := rfl
  have hCS : p ^ 2 ≤ size (G eigh level occ s u) * D := Finset.sum_mul_sq_le_sq_mul_sq _ _ _
  have hG0 := size_nonneg (G eigh level occ s u)
  refine ⟨?_, ?_⟩
  · rcases hD0.eq_or_lt with hz | hz
    · rw [← hz, mul_zero]
      exact hG0
    · have h6 : κ * D ≤ p := by linarith
      have h7 : (κ * D) ^ 2 ≤ p ^ 2 := pow_le_pow_left₀ (by positivity) h6 2
      have h8 : κ ^ 2 * D * D ≤ size (G eigh level occ s u) * D := by nlinarith
      exact le_of_mul_le_mul_right h8 hz
  · -- the energy difference is at most `p - κ D / 2`
    have h9 : 2 * κ * p ≤ size (G eigh level occ s u) + κ ^ 2 * D := by
      have : 0 ≤ ∑ x, (g x - κ * center (fun x => u x - us x) x) ^ 2 := Finset.sum_nonneg fun _ _ => sq_nonneg _
      have e6 : ∑ x, (g x - κ * center (fun x => u x - us x) x) ^ 2 = size (G eigh level occ s u) - 2 * κ * p + κ ^ 2 * D := by
        rw [hG, hp, hD]
        unfold size
        rw [Finset.mul_sum, Finset.mul_sum, ← Finset.sum_sub_distrib, ← Finset.sum_add_distrib]
        exact Finset.sum_congr rfl fun x _ => by ring
      linarith
    nlinarith

/-- **C191**: steepest descent from any structure converges to the relaxed structure exponentially. -/
theorem C191_rate [NeZero nb] {B c κ L τ : ℝ} (hkT : 0 < s.kT) (h1 : ∀ x, HasDerivAt occ (-delta x) x)
    (h3 : ∀ x, HasDerivAt entropy (-x * delta x) x) (h0 : ∀ x, 0 < delta x) (hcont : Continuous delta) (hB : ∀ x, delta x ≤ B)
    (hq : s.q 0 = fun _ => 0) (h : Externals occ eigh level s) (hC : ∀ x y, (s.C0 0 x y).re = (s.C0 0 y x).re)
    (hpos : ∀ w, c * size w ≤ form (s.C0 0) (center w)) (hκ : κ = c - 2 * B / s.kT * total s 0) (hκ0 : 0 < κ)
    (hL : ∀ w, form (s.C0 0) (center w) ≤ L * size w) (hτ : 0 < τ) (hτL : τ * L ≤ 1) (hτκ : τ * κ ≤ 1) {us : X nat → ℝ}
    (hus : center (G eigh level occ s us) = fun _ => 0) (u : X nat → ℝ) (i : Nat) :
    κ / 2 * size (fun x => path eigh level occ s τ u i x - us x) ≤
      (1 - τ * κ) ^ i * (E eigh level occ entropy s u - E eigh level occ entropy s us) := by
  have key := convex (eigh := eigh) (level := level) (entropy := entropy) hkT h1 h3 h0 hcont hB hq h hC hpos us fun x =>
    path eigh level occ s τ u i x - us x
  have e1 : (fun x => us x + (path eigh level occ s τ u i x - us x)) = path eigh level occ s τ u i := by
    funext x
    ring
  rw [e1, hus, ← hκ] at key
  simp only [zero_mul, Finset.sum_const_zero, add_zero] at key
  have hrate : ∀ i, E eigh level occ entropy s (path eigh level occ s τ u i) - E eigh level occ entropy s us ≤
      (1 - τ * κ) ^ i * (E eigh level occ entropy s u - E eigh level occ entropy s us) := by
    intro i
    induction i with
    | zero =>
      rw [pow_zero, one_mul]
      exact le_rfl
    | succ i ih =>
      have hd := C182_descent (entropy := entropy) hkT h1 h3 (occ_anti h1 h0).antitone h hC L τ hL hτ.le hτL (path eigh level occ s τ u i)
      have he := (C191_error (entropy := entropy) hkT h1 h3 h0 hcont hB hq h hC hpos hκ hκ0 hus (path eigh level occ s τ u i)).2
      have hs : E eigh level occ entropy s (path eigh level occ s τ u (i + 1)) ≤ E eigh level occ entropy s (path eigh level occ s τ u i) -
          τ / 2 * size (G eigh level occ s (path eigh level occ s τ u i)) := hd
      have h2 := mul_le_mul_of_nonneg_left he (show 0 ≤ τ / 2 by linarith)
      have h3 := mul_le_mul_of_nonneg_left ih (show 0 ≤ 1 - τ * κ by linarith)
      rw [pow_succ]
      nlinarith
  linarith [hrate i]

/-- **C191**: changing the unscreened force constants and the constant forces, e.g., by an error of the underlying first-principles calculation or an external
force, displaces the relaxed structure by at most the resulting change of the forces, divided by the curvature. The changed driver need not be stable. -/
theorem C191_sensitive [NeZero nb] {B c κ : ℝ} (hkT : 0 < s.kT) (h1 : ∀ x, HasDerivAt occ (-delta x) x)
    (h3 : ∀ x, HasDerivAt entropy (-x * delta x) x) (h0 : ∀ x, 0 < delta x) (hcont : Continuous delta) (hB : ∀ x, delta x ≤ B)
    (hq : s.q 0 = fun _ => 0) (h : Externals occ eigh level s) (hC : ∀ x y, (s.C0 0 x y).re = (s.C0 0 y x).re)
    (hpos : ∀ w, c * size w ≤ form (s.C0 0) (center w)) (hκ : κ = c - 2 * B / s.kT * total s 0) (hκ0 : 0 < κ) {us us' : X nat → ℝ}
    (hus : center (G eigh level occ s us) = fun _ => 0) (C : Fin (nq + 1) → X nat → X nat → ℂ) (F : X nat → ℝ)
    (hus' : center (G eigh level occ { s with C0 := C, F0 := F } us') = fun _ => 0) :
    κ ^ 2 * size (fun x => us' x - us x) ≤ size fun x => ∑ y, ((C 0 x y).re - (s.C0 0 x y).re) * center us' y + (F x - s.F0 x) := by
  have key := (C191_error (entropy := entropy) hkT h1 h3 h0 hcont hB hq h hC hpos hκ hκ0 hus us').1
  have e : (fun x => ∑ y, ((C 0 x y).re - (s.C0 0 x y).re) * center us' y + (F x - s.F0 x)) = fun x =>
      G eigh level occ { s with C0 := C, F0 := F } us' x + -1 * G eigh level occ s us' x := by
    funext x
    simp only [G, solved, Driver.diagonalize, Driver.jacobian, Driver.H, sub_mul, Finset.sum_sub_distrib]
    ring
  have e2 : size (fun x => ∑ y, ((C 0 x y).re - (s.C0 0 x y).re) * center us' y + (F x - s.F0 x)) = size (G eigh level occ s us') := by
    rw [e]
    unfold size
    rw [center_add, center_mul, hus']
    exact Finset.sum_congr rfl fun x _ => by ring
  rw [e2]
  exact key

section examples
open Verif.Occ

/-- Two atoms with stiff springs: steps of a suitable size converge to the relaxed structure, and forces limit the error. -/
example : ∃ k τ κ : ℝ, ∃ us : X 2 → ℝ, 0 < τ * κ ∧ τ * κ ≤ 1 ∧
    (∀ u, κ ^ 2 * size (fun x => u x - us x) ≤ size (G eigh2 level2 gauss (trap k) u)) ∧
    ∀ u i, κ / 2 * size (fun x => path eigh2 level2 gauss (trap k) τ u i x - us x) ≤
      (1 - τ * κ) ^ i * (E eigh2 level2 gauss gaussEntropy (trap k) u - E eigh2 level2 gauss gaussEntropy (trap k) us) := by
  have ht := total_nonneg duo 0
  have hp : 0 ≤ 1 / Real.sqrt Real.pi := by positivity
  have hpt := mul_nonneg hp ht
  set k := 1 / Real.sqrt Real.pi * total duo 0 + 1 with hk
  have hk0 : 0 < k := by linarith
  have htt : total (trap k) 0 = total duo 0 := rfl
  have hkT : (trap k).kT = 1 := rfl
  have hκ : (2 : ℝ) = 2 * k - 2 * (1 / Real.sqrt Real.pi) / (trap k).kT * total (trap k) 0 := by
    rw [htt, hkT, hk]
    ring
  obtain ⟨us, -, -, hus⟩ := C182_minimum (s := trap k) (entropy := gaussEntropy) one_pos (fun x => (C36_gauss x).1) C37_gauss
    C35_gauss.anti.antitone gauss_range (trap_externals k) (springs_symm k) (2 * k) (by linarith) fun w => (springs_form k w).ge
  refine ⟨k, 1 / (2 * k), 2, us, by positivity, ?_, fun u => ?_, fun u i => ?_⟩
  · rw [div_mul_eq_mul_div, one_mul, div_le_one (by linarith)]
    linarith
  · exact (C191_error (s := trap k) (entropy := gaussEntropy) one_pos (fun x => (C36_gauss x).1) C37_gauss gaussDelta_pos gaussDelta_continuous
      delta_bounds.2 rfl (trap_externals k) (springs_symm k) (fun w => (springs_form k w).ge) hκ two_pos hus u).1
  · refine C191_rate (s := trap k) (L := 2 * k) one_pos (fun x => (C36_gauss x).1) C37_gauss gaussDelta_pos gaussDelta_continuous
      delta_bounds.2 rfl (trap_externals k) (springs_symm k) (fun w => (springs_form k w).ge) hκ two_pos (fun w => (springs_form k w).le) (by positivity)
      ?_ ?_ hus u i
    · rw [div_mul_cancel₀ _ (by linarith)]
    · rw [div_mul_eq_mul_div, one_mul, div_le_one (by linarith)]
      linarith

/-- Two atoms with stiff springs, pulled apart by any force. -/
example : ∃ k : ℝ, ∀ f : X 2 → ℝ, ∃ us us' : X 2 → ℝ, center (G eigh2 level2 gauss (trap k) us) = (fun _ => 0) ∧
    center (G eigh2 level2 gauss { trap k with F0 := fun x => (trap k).F0 x - f x } us') = (fun _ => 0) ∧
    2 ^ 2 * size (fun x => us' x - us x) ≤ size f := by
  have ht := total_nonneg duo 0
  have hp : 0 ≤ 1 / Real.sqrt Real.pi := by positivity
  have hpt := mul_nonneg hp ht
  set k := 1 / Real.sqrt Real.pi * total duo 0 + 1 with hk
  have hk0 : 0 < k := by linarith
  have htt : total (trap k) 0 = total duo 0 := rfl
  have hkT : (trap k).kT = 1 := rfl
  have hκ : (2 : ℝ) = 2 * k - 2 * (1 / Real.sqrt Real.pi) / (trap k).kT * total (trap k) 0 := by
    rw [htt, hkT, hk]
    ring
  refine ⟨k, fun f => ?_⟩
  obtain ⟨us, -, -, hus⟩ := C182_minimum (s := trap k) (entropy := gaussEntropy) one_pos (fun x => (C36_gauss x).1) C37_gauss
    C35_gauss.anti.antitone gauss_range (trap_externals k) (springs_symm k) (2 * k) (by linarith) fun w => (springs_form k w).ge
  have hext : Externals gauss eigh2 level2 { trap k with F0 := fun x => (trap k).F0 x - f x } :=
    ⟨duo_externals.eig, duo_externals.unitary, duo_externals.number, duo_externals.hamiltonian, duo_externals.coupling⟩
  obtain ⟨us', -, -, hus'⟩ := C182_minimum (s := { trap k with F0 := fun x => (trap k).F0 x - f x }) (entropy := gaussEntropy) one_pos
    (fun x => (C36_gauss x).1) C37_gauss C35_gauss.anti.antitone gauss_range hext (springs_symm k) (2 * k) (by linarith)
    fun w => (springs_form k w).ge
  refine ⟨us, us', hus, hus', ?_⟩
  have key := C191_sensitive (s := trap k) (entropy := gaussEntropy) one_pos (fun x => (C36_gauss x).1) C37_gauss gaussDelta_pos gaussDelta_continuous
      delta_bounds.2 rfl (trap_externals k) (springs_symm k) (fun w => (springs_form k w).ge) hκ two_pos hus (trap k).C0
      (fun x => (trap k).F0 x - f x) hus'
  have e : (fun x => ∑ y, (((trap k).C0 0 x y).re - ((trap k).C0 0 x y).re) * center us' y + ((trap k).F0 x - f x - (trap k).F0 x)) =
      fun x => -1 * f x := by
    funext x
    simp only [sub_self, zero_mul, Finset.sum_const_zero]
    ring
  rw [e] at key
  refine key.trans (le_of_eq ?_)
  unfold size
  rw [center_mul]
  exact Finset.sum_congr rfl fun x _ => by ring

end examples

end Verif.MD.Relax
