import Mathlib.Analysis.ODE.ExistUnique
import Verif.MD.Warm

/-!
# Molecular dynamics as an initial value problem (C190)

i-PI or ASE integrate Newton's equations with the forces of `elphmod.md.Driver.__call__` (model in `MD/Call.lean`). The equations have one solution for all
initial positions and velocities and all times, although energies and eigenvectors need not be differentiable, and its amplitude is limited if the unscreened
crystal is stable.
-/

namespace Verif.MD.Motion

open Verif.Diag
open Verif.MD.Optimize
open Verif.MD.Bounds
open Verif.MD.Differentiable
open Verif.MD.Warm
open Matrix Filter Topology

/-! ### Initial value problems with Lipschitz continuous right-hand sides -/

section ode

variable {V : Type} [NormedAddCommGroup V] [NormedSpace ℝ V] [CompleteSpace V]

/-- The duration for which there is a solution does not depend on the initial value. -/
theorem local_solution {K : NNReal} {f : V → V} (hf : LipschitzWith K f) (x : V) : ∃ α : ℝ → V, α 0 = x ∧
    ∀ t ∈ Set.Icc (0 : ℝ) (1 / (1 + K)), HasDerivWithinAt α (f (α t)) (Set.Icc 0 (1 / (1 + K))) t := by
  have hK : (0 : ℝ) < 1 / (1 + K) := by positivity
  set a : NNReal := ‖f x‖₊ + 1 with ha
  have hP : IsPicardLindelof (fun _ => f) (tmin := 0) (tmax := 1 / (1 + K)) ⟨0, Set.left_mem_Icc.2 hK.le⟩ x a 0 (‖f x‖₊ + K * a) K := by
    refine ⟨fun t _ => hf.lipschitzOnWith, fun y _ => continuousOn_const, fun t _ y hy => ?_, ?_⟩
    · have h1 : ‖f y - f x‖ ≤ K * ‖y - x‖ := hf.norm_sub_le y x
      have h2 : ‖y - x‖ ≤ a := by
        rw [← dist_eq_norm]
        exact hy
      have h3 : ‖f y‖ ≤ ‖f x‖ + ‖f y - f x‖ := by
        have := norm_add_le (f x) (f y - f x)
        rwa [add_sub_cancel] at this
      push_cast
      have h4 := mul_le_mul_of_nonneg_left h2 K.coe_nonneg
      linarith
    · simp only [sub_zero, sub_self, NNReal.coe_zero]
      rw [max_eq_left hK.le, mul_one_div, div_le_iff₀ (by positivity)]
      push_cast [ha]
      nlinarith [norm_nonneg (f x), K.coe_nonneg]
  obtain ⟨α, h0, h1⟩ := hP.exists_eq_forall_mem_Icc_hasDerivWithinAt₀
  exact ⟨α, h0, h1⟩

theorem forward {K : NNReal} {f : V → V} (hf : LipschitzWith K f) (x : V) : ∃ γ : ℝ → V, γ 0 = x ∧
    HasDerivWithinAt γ (f x) (Set.Ici 0) 0 ∧ ∀ t, 0 < t → HasDerivAt γ (f (γ t)) t := by
  have hε : (0 : ℝ) < 1 / (1 + K) := by positivity
  have hloc := local_solution hf
  generalize (1 / (1 + (K : ℝ))) = ε at hε hloc
  choose β hβ0 hβ using hloc
  let y : ℕ → V := fun n => Nat.rec x (fun _ z => β z ε) n
  have hy : ∀ n, y (n + 1) = β (y n) ε := fun n => rfl
  let γ : ℝ → V := fun t => β (y ⌊t / ε⌋₊) (t - ⌊t / ε⌋₊ * ε)
  have hγ : ∀ (n : ℕ) (t : ℝ), n * ε ≤ t → t < (n + 1) * ε → γ t = β (y n) (t - n * ε) := by
    intro n t h1 h2
    have h0 : 0 ≤ t := le_trans (by positivity) h1
    have : ⌊t / ε⌋₊ = n := by
      rw [Nat.floor_eq_iff (div_nonneg h0 hε.le)]
      exact ⟨(le_div_iff₀ hε).2 h1, (div_lt_iff₀ hε).2 h2⟩
    show β (y ⌊t / ε⌋₊) (t - ⌊t / ε⌋₊ * ε) = _
    rw [this]
  have hγ' : ∀ (n : ℕ) (t : ℝ), n * ε ≤ t → t ≤ (n + 1) * ε → γ t = β (y n) (t - n * ε) := by
    intro n t h1 h2
    rcases h2.lt_or_eq with h2 | h2
    · exact hγ n t h1 h2
    · have := hγ (n + 1) t (by push_cast; exact h2.ge) (by push_cast; rw [h2]; linarith)
      rw [this, hy, h2]
      push_cast
      rw [sub_self, hβ0]
      congr 1
      ring
  have hpiece : ∀ (n : ℕ) (t : ℝ), t ∈ Set.Icc (n * ε) ((n + 1) * ε) → HasDerivWithinAt γ (f (γ t)) (Set.Icc (n * ε) ((n + 1) * ε)) t := by
    intro n t ht
    have hin : t - n * ε ∈ Set.Icc 0 ε := ⟨by linarith [ht.1], by linarith [ht.2]⟩
    have h1 := (hβ (y n) (t - n * ε) hin).scomp t (((hasDerivAt_id t).sub_const (n * ε)).hasDerivWithinAt (s := Set.Icc (n * ε) ((n + 1) * ε)))
      (t' := Set.Icc 0 ε) (fun z (hz : z ∈ Set.Icc (n * ε) ((n + 1) * ε)) => Set.mem_Icc.2 ⟨by simp only [id]; linarith [hz.1], by simp only [id]; linarith [hz.2]⟩)
    rw [one_smul] at h1
    rw [hγ' n t ht.1 ht.2]
    exact h1.congr (fun z hz => hγ' n z hz.1 hz.2) (hγ' n t ht.1 ht.2)
  have h00 : γ 0 = x := by
    rw [hγ 0 0 (by simp) (by simpa using hε)]
    simp [hβ0, y]
  refine ⟨γ, h00, ?_, fun t ht => ?_⟩
  · have := hpiece 0 0 ⟨by simp, by simpa using hε.le⟩
    rw [h00] at this
    simp only [Nat.cast_zero, zero_mul, zero_add, one_mul] at this
    exact this.mono_of_mem_nhdsWithin (Icc_mem_nhdsGE hε)
  · set n := ⌊t / ε⌋₊ with hn
    have a1 : n * ε ≤ t := (le_div_iff₀ hε).1 (Nat.floor_le (div_nonneg ht.le hε.le))
    have a2 : t < (n + 1) * ε := (div_lt_iff₀ hε).1 (Nat.lt_floor_add_one _)
    rcases a1.lt_or_eq with a1 | a1
    · exact (hpiece n t ⟨a1.le, a2.le⟩).hasDerivAt (Icc_mem_nhds a1 a2)
    · obtain ⟨m, hm⟩ : ∃ m, n = m + 1 := by
        refine Nat.exists_eq_succ_of_ne_zero fun h0 => ?_
        rw [h0] at a1
        simp at a1
        linarith
      have b1 := hpiece n t ⟨a1.le, a2.le⟩
      have e : ((m : ℝ) + 1) * ε = t := by rw [← a1, hm]; push_cast; rfl
      have b2 := hpiece m t ⟨by nlinarith, e.ge⟩
      rw [a1] at b1
      rw [e] at b2
      have c1 := b1.mono_of_mem_nhdsWithin (Icc_mem_nhdsGE a2)
      have c2 := b2.mono_of_mem_nhdsWithin (Icc_mem_nhdsLE (by nlinarith))
      have := c2.union c1
      rwa [Set.Iic_union_Ici, hasDerivWithinAt_univ] at this

theorem global {K : NNReal} {f : V → V} (hf : LipschitzWith K f) (x : V) : ∃ γ : ℝ → V, γ 0 = x ∧ ∀ t, HasDerivAt γ (f (γ t)) t := by
  obtain ⟨α, a0, a1, a2⟩ := forward hf x
  obtain ⟨β, b0, b1, b2⟩ := forward (f := fun x => -f x) hf.neg x
  let γ : ℝ → V := fun t => if 0 ≤ t then α t else β (-t)
  have hp : ∀ t, 0 ≤ t → γ t = α t := fun t ht => if_pos ht
  have hm : ∀ t, t ≤ 0 → γ t = β (-t) := by
    intro t ht
    rcases ht.lt_or_eq with h | h
    · exact if_neg (not_le.2 h)
    · rw [h, hp 0 le_rfl, neg_zero, a0, b0]
  refine ⟨γ, by rw [hp 0 le_rfl, a0], fun t => ?_⟩
  rcases lt_trichotomy t 0 with h | h | h
  · have h1 := (b2 (-t) (by linarith)).scomp t (hasDerivAt_neg t)
    rw [neg_smul, one_smul, neg_neg] at h1
    rw [hm t h.le]
    exact h1.congr_of_eventuallyEq ((gt_mem_nhds h).mono fun z hz => hm z (le_of_lt hz))
  · subst h
    rw [hp 0 le_rfl, a0]
    have c1 : HasDerivWithinAt γ (f x) (Set.Ici 0) 0 := a1.congr (fun z hz => hp z hz) (hp 0 le_rfl)
    have c2 : HasDerivWithinAt γ (f x) (Set.Iic 0) 0 := by
      have b1' : HasDerivWithinAt β (-f x) (Set.Ici 0) (-(0 : ℝ)) := by rw [neg_zero]; exact b1
      have h1 := b1'.scomp (0 : ℝ) ((hasDerivAt_neg (0 : ℝ)).hasDerivWithinAt (s := Set.Iic 0)) fun z hz => neg_nonneg.2 (Set.mem_Iic.1 hz)
      rw [neg_smul, one_smul, neg_neg] at h1
      exact h1.congr (fun z hz => hm z hz) (hm 0 le_rfl)
    have := c2.union c1
    rwa [Set.Iic_union_Ici, hasDerivWithinAt_univ] at this
  · rw [hp t h.le]
    exact (a2 t h).congr_of_eventuallyEq ((lt_mem_nhds h).mono fun z hz => hp z (le_of_lt hz))

end ode

/-! ### Forces -/

variable {n1 n2 n3 nb nat nq : Nat} [NeZero n1] [NeZero n2] [NeZero n3]
  {occ delta entropy : ℝ → ℝ} {s : Driver n1 n2 n3 nb nat nq}
  {eigh : Matrix (Fin nb) (Fin nb) ℂ → (Fin nb → ℝ) × Matrix (Fin nb) (Fin nb) ℂ} {level : (Mesh n1 n2 n3 → Fin nb → ℝ) → ℝ}

/-- Square of the norm of displacements relative to the centre. -/
noncomputable def size (w : X nat → ℝ) : ℝ := ∑ x, center w x ^ 2

theorem size_nonneg (w : X nat → ℝ) : 0 ≤ size w := Finset.sum_nonneg fun _ _ => sq_nonneg _

theorem center_add (u v : X nat → ℝ) : center (fun x => u x + v x) = fun x => center u x + center v x := by
  funext x
  unfold center
  rw [Finset.sum_add_distrib]
  ring

theorem center_mul (a : ℝ) (u : X nat → ℝ) : center (fun x => a * u x) = fun x => a * center u x := by
  funext x
  unfold center
  rw [← Finset.mul_sum]
  ring

theorem size_add (u v : X nat → ℝ) : size (fun x => u x + v x) ≤ 2 * size u + 2 * size v := by
  unfold size
  rw [center_add, Finset.mul_sum, Finset.mul_sum, ← Finset.sum_add_distrib]
  refine Finset.sum_le_sum fun x _ => ?_
  nlinarith [sq_nonneg (center u x - center v x)]

theorem size_mul (a : ℝ) (u : X nat → ℝ) : size (fun x => a * u x) = a ^ 2 * size u := by
  unfold size
  rw [center_mul, Finset.mul_sum]
  exact Finset.sum_congr rfl fun x _ => mul_pow _ _ _

/-- The displacements relative to the centre are not larger than the displacements. -/
theorem size_le (u : X nat → ℝ) : size u ≤ ∑ x, u x ^ 2 := by
  have h1 : ∑ x, u x * center u x = size u := by
    rw [sum_center]
    exact Finset.sum_congr rfl fun x _ => (sq _).symm
  have h2 : 0 ≤ ∑ x, (u x - center u x) ^ 2 := Finset.sum_nonneg fun _ _ => sq_nonneg _
  have h3 : ∑ x, (u x - center u x) ^ 2 = ∑ x, u x ^ 2 - 2 * (∑ x, u x * center u x) + size u := by
    unfold size
    rw [Finset.mul_sum, ← Finset.sum_sub_distrib, ← Finset.sum_add_distrib]
    exact Finset.sum_congr rfl fun x _ => by ring
  rw [h3, h1] at h2
  linarith

/-- Largest curvature of the free energy. -/
noncomputable def stiff (B : ℝ) (s : Driver n1 n2 n3 nb nat nq) : ℝ := ∑ x, ∑ y, |(s.C0 0 x y).re| + 2 * B / s.kT * total s 0 + 1

theorem stiff_pos {B : ℝ} (hB : 0 ≤ B) (hkT : 0 < s.kT) : 0 < stiff B s := by
  have h1 := total_nonneg s 0
  have h2 : 0 ≤ ∑ x, ∑ y, |(s.C0 0 x y).re| := Finset.sum_nonneg fun x _ => Finset.sum_nonneg fun y _ => abs_nonneg _
  unfold stiff
  positivity

theorem remainder [NeZero nb] {B : ℝ} (hkT : 0 < s.kT) (h1 : ∀ x, HasDerivAt occ (-delta x) x)
    (h3 : ∀ x, HasDerivAt entropy (-x * delta x) x) (h0 : ∀ x, 0 < delta x) (hcont : Continuous delta) (hB : ∀ x, delta x ≤ B)
    (hq : s.q 0 = fun _ => 0) (h : Externals occ eigh level s) (hC : ∀ x y, (s.C0 0 x y).re = (s.C0 0 y x).re) (u w : X nat → ℝ) :
    |E eigh level occ entropy s (fun x => u x + w x) - E eigh level occ entropy s u - ∑ x, G eigh level occ s u x * center w x| ≤
      stiff B s / 2 * size w := by
  have hB0 : 0 ≤ B := (h0 0).le.trans (hB 0)
  have hs := size_nonneg w
  have hc : 0 ≤ 2 * B / s.kT := by positivity
  have k1 := C189_tangent hkT h1 h3 h0 hcont hB hq h hC u w
  have k2 := C182_tangent hkT h1 h3 (occ_anti h1 h0).antitone h hC u fun x => u x + w x
  have e : (fun x => center (fun x => u x + w x) x - center u x) = center w := by
    rw [center_add]
    funext x
    ring
  have e' : ∀ x, center (fun x => u x + w x) x - center u x = center w x := fun x => congrFun e x
  simp only [e'] at k2
  change _ ≤ _ + 1 / 2 * form (s.C0 0) (center w) at k2
  have f1 := form_le (s.C0 0) (center w)
  have f2 := form_le (fun x y => -s.C0 0 x y) (center w)
  have f3 : form (fun x y => -s.C0 0 x y) (center w) = -form (s.C0 0) (center w) := by
    unfold form
    simp only [Complex.neg_re, mul_neg, neg_mul, Finset.sum_neg_distrib]
  rw [f3] at f2
  simp only [Complex.neg_re, abs_neg] at f2
  have f4 := mul_le_mul_of_nonneg_left (strength_le s 0 fun x => ((center w x : ℝ) : ℂ)) hc
  rw [norm_real] at f4
  have f5 : 0 ≤ 2 * B / s.kT * total s 0 * size w := mul_nonneg (mul_nonneg hc (total_nonneg s 0)) hs
  have e2 : stiff B s / 2 * size w = ((∑ x, ∑ y, |(s.C0 0 x y).re|) * ∑ x, center w x ^ 2) / 2 +
      2 * B / s.kT * (total s 0 * ∑ x, center w x ^ 2) / 2 + size w / 2 := by
    unfold stiff size
    ring
  have f6 : 2 * B / s.kT * (total s 0 * ∑ x, center w x ^ 2) = 2 * B / s.kT * total s 0 * size w := by
    unfold size
    ring
  rw [e2, abs_le]
  constructor <;> linarith

/-- **C190**: the forces do not change faster than proportionally to the displacements. -/
theorem C190_forces [NeZero nb] {B : ℝ} (hkT : 0 < s.kT) (h1 : ∀ x, HasDerivAt occ (-delta x) x)
    (h3 : ∀ x, HasDerivAt entropy (-x * delta x) x) (h0 : ∀ x, 0 < delta x) (hcont : Continuous delta) (hB : ∀ x, delta x ≤ B)
    (hq : s.q 0 = fun _ => 0) (h : Externals occ eigh level s) (hsum : SumRules s) (u v : X nat → ℝ) :
    ∑ x, (G eigh level occ s v x - G eigh level occ s u x) ^ 2 ≤ (3 * stiff B s) ^ 2 * ∑ x, (v x - u x) ^ 2 := by
  have hB0 : 0 ≤ B := (h0 0).le.trans (hB 0)
  have hL := stiff_pos (s := s) hB0 hkT
  have hR := remainder (eigh := eigh) (level := level) (entropy := entropy) hkT h1 h3 h0 hcont hB hq h hsum.symm
  generalize stiff B s = L at hL hR ⊢
  set g : X nat → ℝ := fun x => G eigh level occ s v x - G eigh level occ s u x with hg
  set w : X nat → ℝ := fun x => v x - u x with hw
  have hcg : center g = g := by
    have hs : ∀ u y, ∑ na, G eigh level occ s u (na, y) = 0 := fun u y =>
      C89_sum occ (solved eigh level s u) hsum.springs hsum.coupling hsum.forces y
    funext x
    unfold center
    rw [hg]
    simp only
    rw [Finset.sum_sub_distrib, hs, hs]
    simp
  have hsg : size g = ∑ x, g x ^ 2 := by
    unfold size
    rw [hcg]
  have key : ∀ k : X nat → ℝ, ∑ x, g x * center k x ≤ 3 / 2 * L * (size k + size w) := by
    intro k
    have r1 := (abs_le.1 (hR v k)).2
    have r1' := (abs_le.1 (hR v k)).1
    have r2 := abs_le.1 (hR u fun x => w x + k x)
    have r3 := abs_le.1 (hR u w)
    have e1 : (fun x => u x + (w x + k x)) = fun x => v x + k x := by
      funext x
      rw [hw]
      ring
    have e2 : (fun x => u x + w x) = v := by
      funext x
      rw [hw]
      ring
    rw [e1, center_add] at r2
    rw [e2] at r3
    have e3 : ∑ x, G eigh level occ s u x * (center w x + center k x) =
        ∑ x, G eigh level occ s u x * center w x + ∑ x, G eigh level occ s u x * center k x := by
      rw [← Finset.sum_add_distrib]
      exact Finset.sum_congr rfl fun x _ => mul_add _ _ _
    rw [e3] at r2
    have e4 : ∑ x, g x * center k x = ∑ x, G eigh level occ s v x * center k x - ∑ x, G eigh level occ s u x * center k x := by
      rw [← Finset.sum_sub_distrib]
      exact Finset.sum_congr rfl fun x _ => sub_mul _ _ _
    have r4 := mul_le_mul_of_nonneg_left (size_add w k) hL.le
    rw [e4]
    nlinarith [r1, r1', r2.1, r2.2, r3.1, r3.2]
  have k2 := key fun x => 1 / (3 * L) * g x
  rw [size_mul, center_mul, hcg] at k2
  have e5 : ∑ x, g x * (1 / (3 * L) * g x) = 1 / (3 * L) * size g := by
    rw [hsg, Finset.mul_sum]
    exact Finset.sum_congr rfl fun x _ => by ring
  rw [e5] at k2
  have k3 : size g ≤ (3 * L) ^ 2 * size w := by
    have h6 := mul_le_mul_of_nonneg_left k2 (show 0 ≤ 6 * L by linarith)
    have e6 : 6 * L * (1 / (3 * L) * size g) = 2 * size g := by
      field_simp
      ring
    have e7 : 6 * L * (3 / 2 * L * ((1 / (3 * L)) ^ 2 * size g + size w)) = size g + (3 * L) ^ 2 * size w := by
      field_simp
      ring
    rw [e6, e7] at h6
    linarith
  rw [← hsg]
  exact k3.trans (mul_le_mul_of_nonneg_left (size_le w) (sq_nonneg _))

/-! ### Trajectories -/

/-- Specification: Newton's equations for positions `r` and velocities `v` as functions of time, with the forces returned by `__call__`. -/
def Newton (eigh : Matrix (Fin nb) (Fin nb) ℂ → (Fin nb → ℝ) × Matrix (Fin nb) (Fin nb) ℂ) (level : (Mesh n1 n2 n3 → Fin nb → ℝ) → ℝ)
    (occ entropy : ℝ → ℝ) (s : Driver n1 n2 n3 nb nat nq) (r0 : X nat → ℝ) (M : Fin nat → ℝ) (r v : ℝ → X nat → ℝ) : Prop :=
  (∀ t x, HasDerivAt (fun t => r t x) (v t x) t) ∧
    ∀ t x, HasDerivAt (fun t => v t x) ((s.call eigh level occ entropy r0 (r t)).2.1 x / M x.1) t

theorem call_forces (r0 r : X nat → ℝ) (x : X nat) : (s.call eigh level occ entropy r0 r).2.1 x = -0.5 * G eigh level occ s (fun x => r x - r0 x) x := rfl

theorem call_energy (r0 r : X nat → ℝ) : (s.call eigh level occ entropy r0 r).1 = 0.5 * E eigh level occ entropy s fun x => r x - r0 x := rfl

/-- Right-hand side of the equations of motion. -/
noncomputable def field (eigh : Matrix (Fin nb) (Fin nb) ℂ → (Fin nb → ℝ) × Matrix (Fin nb) (Fin nb) ℂ) (level : (Mesh n1 n2 n3 → Fin nb → ℝ) → ℝ)
    (occ entropy : ℝ → ℝ) (s : Driver n1 n2 n3 nb nat nq) (r0 : X nat → ℝ) (M : Fin nat → ℝ) (z : (X nat → ℝ) × (X nat → ℝ)) :
    (X nat → ℝ) × (X nat → ℝ) := (z.2, fun x => (s.call eigh level occ entropy r0 z.1).2.1 x / M x.1)

theorem field_lipschitz [NeZero nb] {B : ℝ} (hkT : 0 < s.kT) (h1 : ∀ x, HasDerivAt occ (-delta x) x)
    (h3 : ∀ x, HasDerivAt entropy (-x * delta x) x) (h0 : ∀ x, 0 < delta x) (hcont : Continuous delta) (hB : ∀ x, delta x ≤ B)
    (hq : s.q 0 = fun _ => 0) (h : Externals occ eigh level s) (hsum : SumRules s) (r0 : X nat → ℝ) (M : Fin nat → ℝ) :
    ∃ K : NNReal, LipschitzWith K (field eigh level occ entropy s r0 M) := by
  have hB0 : 0 ≤ B := (h0 0).le.trans (hB 0)
  have hL := stiff_pos (s := s) hB0 hkT
  set W : ℝ := ∑ na, |1 / M na| with hW
  have hW0 : 0 ≤ W := Finset.sum_nonneg fun _ _ => abs_nonneg _
  set c : ℝ := 3 * stiff B s * Real.sqrt (Fintype.card (X nat)) with hc
  have hc0 : 0 ≤ c := by positivity
  have hG : ∀ u v : X nat → ℝ, ∀ x, |G eigh level occ s v x - G eigh level occ s u x| ≤ c * ‖v - u‖ := by
    intro u v x
    have k1 := C190_forces (entropy := entropy) hkT h1 h3 h0 hcont hB hq h hsum u v
    have k2 : (G eigh level occ s v x - G eigh level occ s u x) ^ 2 ≤ ∑ x, (G eigh level occ s v x - G eigh level occ s u x) ^ 2 :=
      Finset.single_le_sum (f := fun x => (G eigh level occ s v x - G eigh level occ s u x) ^ 2) (fun z _ => sq_nonneg _) (Finset.mem_univ x)
    have k3 : ∑ x, (v x - u x) ^ 2 ≤ Fintype.card (X nat) * ‖v - u‖ ^ 2 := by
      have : ∑ x, (v x - u x) ^ 2 ≤ ∑ _x : X nat, ‖v - u‖ ^ 2 := Finset.sum_le_sum fun z _ => by
        rw [← sq_abs]
        exact pow_le_pow_left₀ (abs_nonneg _) (norm_le_pi_norm (v - u) z) 2
      rwa [Finset.sum_const, Finset.card_univ, nsmul_eq_mul] at this
    refine abs_le_of_sq_le_sq ?_ (by positivity)
    have e : (c * ‖v - u‖) ^ 2 = (3 * stiff B s) ^ 2 * (Fintype.card (X nat) * ‖v - u‖ ^ 2) := by
      rw [hc, mul_pow, mul_pow, Real.sq_sqrt (Nat.cast_nonneg _)]
      ring
    rw [e]
    exact k2.trans (k1.trans (mul_le_mul_of_nonneg_left k3 (sq_nonneg _)))
  refine ⟨⟨1 + 0.5 * c * W, by positivity⟩, LipschitzWith.of_dist_le_mul fun z z' => ?_⟩
  have d1 : ‖z.1 - z'.1‖ ≤ dist z z' := by
    rw [← dist_eq_norm]
    exact le_max_left _ _
  have d2 : dist z.2 z'.2 ≤ dist z z' := le_max_right _ _
  have hd := dist_nonneg (x := z) (y := z')
  show dist (field eigh level occ entropy s r0 M z) (field eigh level occ entropy s r0 M z') ≤ (1 + 0.5 * c * W) * dist z z'
  refine max_le ?_ ((dist_pi_le_iff (by positivity)).2 fun x => ?_)
  · refine d2.trans (le_mul_of_one_le_left hd ?_)
    have : 0 ≤ 0.5 * c * W := by positivity
    linarith
  · show dist ((s.call eigh level occ entropy r0 z.1).2.1 x / M x.1) ((s.call eigh level occ entropy r0 z'.1).2.1 x / M x.1) ≤ _
    rw [call_forces, call_forces, Real.dist_eq]
    have k := hG (fun x => z'.1 x - r0 x) (fun x => z.1 x - r0 x) x
    have e : ((fun x => z.1 x - r0 x) - fun x => z'.1 x - r0 x) = z.1 - z'.1 := by
      funext x
      simp
    rw [e] at k
    have e2 : ∀ a b : ℝ, |-0.5 * a / M x.1 - -0.5 * b / M x.1| = 0.5 * |a - b| * |1 / M x.1| := by
      intro a b
      rw [show -0.5 * a / M x.1 - -0.5 * b / M x.1 = -0.5 * (a - b) * (1 / M x.1) by ring, abs_mul, abs_mul]
      norm_num
    rw [e2]
    have hWx : |1 / M x.1| ≤ W := Finset.single_le_sum (f := fun na => |1 / M na|) (fun _ _ => abs_nonneg _) (Finset.mem_univ x.1)
    calc 0.5 * |_ - _| * |1 / M x.1| ≤ 0.5 * (c * dist z z') * W := by
          refine mul_le_mul ?_ hWx (abs_nonneg _) (by positivity)
          exact mul_le_mul_of_nonneg_left (k.trans (mul_le_mul_of_nonneg_left d1 hc0)) (by norm_num)
      _ ≤ (1 + 0.5 * c * W) * dist z z' := by
          nlinarith

theorem newton_field (r0 : X nat → ℝ) (M : Fin nat → ℝ) (r v : ℝ → X nat → ℝ) : Newton eigh level occ entropy s r0 M r v ↔
    ∀ t, HasDerivAt (fun t => (r t, v t)) (field eigh level occ entropy s r0 M (r t, v t)) t := by
  constructor
  · intro hN t
    exact (hasDerivAt_pi.2 (hN.1 t)).prodMk (hasDerivAt_pi.2 (hN.2 t))
  · intro hN
    refine ⟨fun t x => ?_, fun t x => ?_⟩
    · exact (hasDerivAt_pi.1 ((hasFDerivAt_fst.comp_hasDerivAt t (hN t))) x)
    · exact (hasDerivAt_pi.1 ((hasFDerivAt_snd.comp_hasDerivAt t (hN t))) x)

/-- **C190**: for all initial positions and velocities, there is a trajectory for all times. -/
theorem C190_exists [NeZero nb] {B : ℝ} (hkT : 0 < s.kT) (h1 : ∀ x, HasDerivAt occ (-delta x) x)
    (h3 : ∀ x, HasDerivAt entropy (-x * delta x) x) (h0 : ∀ x, 0 < delta x) (hcont : Continuous delta) (hB : ∀ x, delta x ≤ B)
    (hq : s.q 0 = fun _ => 0) (h : Externals occ eigh level s) (hsum : SumRules s) (r0 : X nat → ℝ) (M : Fin nat → ℝ) (a b : X nat → ℝ) :
    ∃ r v, r 0 = a ∧ v 0 = b ∧ Newton eigh level occ entropy s r0 M r v := by
  obtain ⟨K, hK⟩ := field_lipschitz (entropy := entropy) hkT h1 h3 h0 hcont hB hq h hsum r0 M
  obtain ⟨γ, g0, g1⟩ := Motion.global hK (a, b)
  exact ⟨fun t => (γ t).1, fun t => (γ t).2, congrArg Prod.fst g0, congrArg Prod.snd g0, (newton_field r0 M _ _).2 g1⟩

/-- **C190**: positions and velocities at one time determine the trajectory for all times, before and after. -/
theorem C190_unique [NeZero nb] {B : ℝ} (hkT : 0 < s.kT) (h1 : ∀ x, HasDerivAt occ (-delta x) x)
    (h3 : ∀ x, HasDerivAt entropy (-x * delta x) x) (h0 : ∀ x, 0 < delta x) (hcont : Continuous delta) (hB : ∀ x, delta x ≤ B)
    (hq : s.q 0 = fun _ => 0) (h : Externals occ eigh level s) (hsum : SumRules s) (r0 : X nat → ℝ) (M : Fin nat → ℝ)
    {r v r' v' : ℝ → X nat → ℝ} (hN : Newton eigh level occ entropy s r0 M r v) (hN' : Newton eigh level occ entropy s r0 M r' v') {t0 : ℝ}
    (hr : r t0 = r' t0) (hv : v t0 = v' t0) : r = r' ∧ v = v' := by
  obtain ⟨K, hK⟩ := field_lipschitz (entropy := entropy) hkT h1 h3 h0 hcont hB hq h hsum r0 M
  have key := ODE_solution_unique_univ (v := fun _ => field eigh level occ entropy s r0 M) (s := fun _ => Set.univ) (K := K)
    (f := fun t => (r t, v t)) (g := fun t => (r' t, v' t)) (t₀ := t0)
    (fun _ => hK.lipschitzOnWith) (fun t => ⟨(newton_field r0 M r v).1 hN t, trivial⟩) (fun t => ⟨(newton_field r0 M r' v').1 hN' t, trivial⟩)
    (by rw [hr, hv])
  exact ⟨funext fun t => congrArg Prod.fst (congrFun key t), funext fun t => congrArg Prod.snd (congrFun key t)⟩

/-- **C190**: reversing the velocities reverses the trajectory. -/
theorem C190_reversed (r0 : X nat → ℝ) (M : Fin nat → ℝ) {r v : ℝ → X nat → ℝ} (hN : Newton eigh level occ entropy s r0 M r v) :
    Newton eigh level occ entropy s r0 M (fun t => r (-t)) fun t x => -v (-t) x := by
  refine ⟨fun t x => ?_, fun t x => ?_⟩
  · exact ((hN.1 (-t) x).scomp t (hasDerivAt_neg t)).congr_deriv (by rw [smul_eq_mul]; ring)
  · exact ((hN.2 (-t) x).scomp t (hasDerivAt_neg t)).neg.congr_deriv (by rw [smul_eq_mul]; ring)

/-- **C190**: the total momentum is conserved. -/
theorem C190_momentum (hsum : SumRules s) (r0 : X nat → ℝ) (M : Fin nat → ℝ) (hM : ∀ na, M na ≠ 0) {r v : ℝ → X nat → ℝ}
    (hN : Newton eigh level occ entropy s r0 M r v) (x : Fin 3) (t t' : ℝ) : ∑ na, M na * v t (na, x) = ∑ na, M na * v t' (na, x) := by
  have hd : ∀ t, HasDerivAt (fun t => ∑ na, M na * v t (na, x)) 0 t := by
    intro t
    refine (HasDerivAt.fun_sum fun na _ => (hN.2 t (na, x)).const_mul (M na)).congr_deriv ?_
    rw [← (C134_total eigh level occ entropy s hsum r0 (r t) x).1]
    exact Finset.sum_congr rfl fun na _ => mul_div_cancel₀ _ (hM na)
  exact is_const_of_deriv_eq_zero (fun t => (hd t).differentiableAt) (fun t => (hd t).deriv) t t'

/-- **C190**: the trajectory remains in the vicinity of a structure without forces if the temperature is sufficiently high. -/
theorem C190_stable [NeZero nb] {B c : ℝ} (hkT : 0 < s.kT) (h1 : ∀ x, HasDerivAt occ (-delta x) x)
    (h3 : ∀ x, HasDerivAt entropy (-x * delta x) x) (h0 : ∀ x, 0 < delta x) (hcont : Continuous delta) (hB : ∀ x, delta x ≤ B)
    (hq : s.q 0 = fun _ => 0) (h : Externals occ eigh level s) (hsum : SumRules s) (r0 : X nat → ℝ) (M : Fin nat → ℝ) (hM : ∀ na, M na ≠ 0)
    (hpos : ∀ w, c * size w ≤ form (s.C0 0) (center w)) {rs : X nat → ℝ}
    (hs : ∀ x, (s.call eigh level occ entropy r0 rs).2.1 x = 0) {r v : ℝ → X nat → ℝ} (hN : Newton eigh level occ entropy s r0 M r v) (t : ℝ) :
    ∑ x, M x.1 * v t x ^ 2 / 2 + (c - 2 * B / s.kT * total s 0) / 4 * size (fun x => r t x - rs x) ≤
      ∑ x, M x.1 * v 0 x ^ 2 / 2 + stiff B s / 4 * size (fun x => r 0 x - rs x) := by
  have hB0 : 0 ≤ B := (h0 0).le.trans (hB 0)
  have hc := C185_conserved h hsum hkT h1 h3 h0 hcont r0 M hM r v hN.1 hN.2 0 t
  have hG : ∀ x, G eigh level occ s (fun x => rs x - r0 x) x = 0 := by
    intro x
    have := hs x
    rw [call_forces] at this
    linarith
  have e : ∀ r : X nat → ℝ, (fun x => rs x - r0 x + (r x - rs x)) = fun x => r x - r0 x := by
    intro r
    funext x
    ring
  have k1 := C189_tangent hkT h1 h3 h0 hcont hB hq h hsum.symm (fun x => rs x - r0 x) fun x => r t x - rs x
  have k2 := (abs_le.1 (remainder (entropy := entropy) hkT h1 h3 h0 hcont hB hq h hsum.symm (fun x => rs x - r0 x) fun x => r 0 x - rs x)).2
  rw [e] at k1 k2
  simp only [hG, zero_mul, Finset.sum_const_zero, add_zero, sub_zero] at k1 k2
  have f4 := mul_le_mul_of_nonneg_left (strength_le s 0 fun x => ((center (fun x => r t x - rs x) x : ℝ) : ℂ)) (show 0 ≤ 2 * B / s.kT by positivity)
  rw [norm_real] at f4
  have f5 := hpos fun x => r t x - rs x
  rw [call_energy, call_energy] at hc
  unfold size at *
  linarith

/-- **C190**: such a structure exists if the unscreened crystal is stable. -/
theorem C190_rest {c : ℝ} (hkT : 0 < s.kT) (h1 : ∀ x, HasDerivAt occ (-delta x) x) (h3 : ∀ x, HasDerivAt entropy (-x * delta x) x)
    (h0 : ∀ x, 0 < delta x) (h01 : ∀ x, 0 ≤ occ x ∧ occ x ≤ 1) (h : Externals occ eigh level s) (hsum : SumRules s) (r0 : X nat → ℝ) (hc : 0 < c)
    (hpos : ∀ w, c * ∑ x, center w x ^ 2 ≤ form (s.C0 0) (center w)) : ∃ rs, ∀ x, (s.call eigh level occ entropy r0 rs).2.1 x = 0 := by
  obtain ⟨u, -, -, hu⟩ := C182_minimum (entropy := entropy) hkT h1 h3 (occ_anti h1 h0).antitone h01 h hsum.symm c hc hpos
  refine ⟨fun x => r0 x + u x, fun x => ?_⟩
  have e : (fun x => r0 x + u x - r0 x) = u := by
    funext x
    ring
  have hs : ∑ na, G eigh level occ s u (na, x.2) = 0 := C89_sum occ (solved eigh level s u) hsum.springs hsum.coupling hsum.forces x.2
  have h2 := congrFun hu x
  unfold center at h2
  rw [hs, zero_div, sub_zero] at h2
  rw [call_forces, e, h2, mul_zero]

theorem coercive (hkT : 0 < s.kT) (h1 : ∀ x, HasDerivAt occ (-delta x) x) (h3 : ∀ x, HasDerivAt entropy (-x * delta x) x)
    (ha : Antitone occ) (h01 : ∀ x, 0 ≤ occ x ∧ occ x ≤ 1) (h : Externals occ eigh level s)
    (c : ℝ) (hc : 0 < c) (hpos : ∀ w, c * ∑ x, center w x ^ 2 ≤ form (s.C0 0) (center w)) {K : ℝ} (hK : K = ∑ x, (Bounds.bound s x + |s.F0 x|))
    (v : X nat → ℝ) :
    E eigh level occ entropy s (fun _ => 0) - K * ‖center v‖ + c / 2 * ‖center v‖ ^ 2 ≤ E eigh level occ entropy s v := by
  rcases Nat.eq_zero_or_pos nat with hn | hn
  · subst hn
    have : v = fun _ => 0 := funext fun x => x.1.elim0
    rw [this, Bounds.center_zero]
    have : ‖(fun _ : X 0 => (0 : ℝ))‖ = 0 := norm_zero
    rw [this]
    simp
  have a1 := el_lipschitz hkT h1 h3 ha h01 h v (fun _ => 0)
  rw [Bounds.center_zero] at a1
  rw [E_eq hkT.ne' v, E_eq hkT.ne' (fun _ => 0), Bounds.center_zero]
  have f0 : (form (s.C0 0) fun _ => 0) = 0 := by simp [form]
  rw [f0]
  simp only [mul_zero, Finset.sum_const_zero, add_zero]
  have hx : ∀ x, |center v x| ≤ ‖center v‖ := fun x => norm_le_pi_norm (center v) x
  have a2 : ∑ x, Bounds.bound s x * |0 - center v x| + ∑ x, |s.F0 x| * |center v x| ≤ K * ‖center v‖ := by
    rw [hK, Finset.sum_mul, ← Finset.sum_add_distrib]
    refine Finset.sum_le_sum fun x _ => ?_
    rw [zero_sub, abs_neg, ← add_mul]
    exact mul_le_mul_of_nonneg_left (hx x) (add_nonneg (bound_nonneg s x) (abs_nonneg _))
  have a3 : -∑ x, |s.F0 x| * |center v x| ≤ ∑ x, s.F0 x * center v x := by
    rw [← Finset.sum_neg_distrib]
    refine Finset.sum_le_sum fun x _ => ?_
    rw [← abs_mul]
    exact neg_abs_le _
  have a4 : ‖center v‖ ^ 2 ≤ ∑ x, center v x ^ 2 := by
    have hs0 : 0 ≤ ∑ x, center v x ^ 2 := Finset.sum_nonneg fun x _ => sq_nonneg _
    have : ‖center v‖ ≤ Real.sqrt (∑ x, center v x ^ 2) := by
      refine (pi_norm_le_iff_of_nonneg (Real.sqrt_nonneg _)).2 fun x => ?_
      rw [Real.norm_eq_abs]
      refine Real.abs_le_sqrt ?_
      exact Finset.single_le_sum (f := fun x => center v x ^ 2) (fun z _ => sq_nonneg _) (Finset.mem_univ x)
    calc ‖center v‖ ^ 2 ≤ Real.sqrt (∑ x, center v x ^ 2) ^ 2 := by gcongr
      _ = _ := Real.sq_sqrt hs0
  have a5 : c * ‖center v‖ ^ 2 ≤ form (s.C0 0) (center v) := (mul_le_mul_of_nonneg_left a4 hc.le).trans (hpos v)
  linarith

/-- **C190**: if the unscreened crystal is stable, all trajectories are limited to a finite region, at any temperature, apart from a motion of the crystal
as a whole. -/
theorem C190_bounded [NeZero nb] {c : ℝ} (hkT : 0 < s.kT) (h1 : ∀ x, HasDerivAt occ (-delta x) x)
    (h3 : ∀ x, HasDerivAt entropy (-x * delta x) x) (h0 : ∀ x, 0 < delta x) (hcont : Continuous delta) (h01 : ∀ x, 0 ≤ occ x ∧ occ x ≤ 1)
    (h : Externals occ eigh level s) (hsum : SumRules s) (r0 : X nat → ℝ) (M : Fin nat → ℝ) (hM : ∀ na, 0 < M na) (hc : 0 < c)
    (hpos : ∀ w, c * ∑ x, center w x ^ 2 ≤ form (s.C0 0) (center w)) {r v : ℝ → X nat → ℝ} (hN : Newton eigh level occ entropy s r0 M r v) :
    ∃ R, ∀ t x, |center (fun x => r t x - r0 x) x| ≤ R ∧ |v t x| ≤ R := by
  set T : ℝ := ∑ x, M x.1 * v 0 x ^ 2 / 2 + (s.call eigh level occ entropy r0 (r 0)).1 with hT
  set K : ℝ := ∑ x, (Bounds.bound s x + |s.F0 x|) with hK
  set A : ℝ := T - 0.5 * E eigh level occ entropy s (fun _ => 0) + K ^ 2 / c with hA
  have key : ∀ t, ∑ x, M x.1 * v t x ^ 2 / 2 + c / 8 * ‖center (fun x => r t x - r0 x)‖ ^ 2 ≤ A := by
    intro t
    have hcons := C185_conserved h hsum hkT h1 h3 h0 hcont r0 M (fun na => (hM na).ne') r v hN.1 hN.2 0 t
    have hco := coercive hkT h1 h3 (occ_anti h1 h0).antitone h01 h c hc hpos hK fun x => r t x - r0 x
    rw [← hT, call_energy] at hcons
    set y := ‖center (fun x => r t x - r0 x)‖
    have hsq : K * y ≤ c / 4 * y ^ 2 + K ^ 2 / c := by
      have : c / 4 * y ^ 2 + K ^ 2 / c - K * y = (c / 2 * y - K) ^ 2 / c := by
        field_simp
        ring
      have h2 : 0 ≤ (c / 2 * y - K) ^ 2 / c := by positivity
      linarith
    have h3 : 0 ≤ K ^ 2 / c := by positivity
    rw [hA]
    linarith
  have hterm : ∀ t x, 0 ≤ M x.1 * v t x ^ 2 / 2 := fun t x => by
    have := hM x.1
    positivity
  refine ⟨Real.sqrt (8 * A / c) + ∑ x : X nat, Real.sqrt (2 * A / M x.1), fun t x => ?_⟩
  have hk := key t
  have hR1 : 0 ≤ ∑ x : X nat, Real.sqrt (2 * A / M x.1) := Finset.sum_nonneg fun _ _ => Real.sqrt_nonneg _
  have hv0 : 0 ≤ ∑ x, M x.1 * v t x ^ 2 / 2 := Finset.sum_nonneg fun x _ => hterm t x
  have hy0 : 0 ≤ c / 8 * ‖center (fun x => r t x - r0 x)‖ ^ 2 := by positivity
  constructor
  · have h4 : |center (fun x => r t x - r0 x) x| ≤ ‖center (fun x => r t x - r0 x)‖ := norm_le_pi_norm (center fun x => r t x - r0 x) x
    have h5 : ‖center (fun x => r t x - r0 x)‖ ≤ Real.sqrt (8 * A / c) := by
      refine Real.le_sqrt_of_sq_le ?_
      rw [le_div_iff₀ hc]
      linarith
    linarith
  · have h4 : M x.1 * v t x ^ 2 / 2 ≤ ∑ x, M x.1 * v t x ^ 2 / 2 :=
      Finset.single_le_sum (f := fun x => M x.1 * v t x ^ 2 / 2) (fun z _ => hterm t z) (Finset.mem_univ x)
    have h5 : |v t x| ≤ Real.sqrt (2 * A / M x.1) := by
      refine Real.abs_le_sqrt ?_
      rw [le_div_iff₀ (hM x.1)]
      linarith
    have h6 : Real.sqrt (2 * A / M x.1) ≤ ∑ x : X nat, Real.sqrt (2 * A / M x.1) :=
      Finset.single_le_sum (f := fun x : X nat => Real.sqrt (2 * A / M x.1)) (fun _ _ => Real.sqrt_nonneg _) (Finset.mem_univ x)
    linarith [Real.sqrt_nonneg (8 * A / c)]

section examples
open Verif.Occ

/-- Two atoms with springs and electrons that want them to approach or to depart from each other: there is one trajectory, which is limited. -/
example (k : ℝ) (hk : 0 < k) (r0 a b : X 2 → ℝ) : ∃ r v R, r 0 = a ∧ v 0 = b ∧ Newton eigh2 level2 gauss gaussEntropy (trap k) r0 (fun _ => 1) r v ∧
    (∀ t x, |center (fun x => r t x - r0 x) x| ≤ R ∧ |v t x| ≤ R) ∧
    ∀ r' v', Newton eigh2 level2 gauss gaussEntropy (trap k) r0 (fun _ => 1) r' v' → r' 0 = a → v' 0 = b → r' = r := by
  obtain ⟨r, v, h1, h2, h3⟩ := C190_exists (s := trap k) (entropy := gaussEntropy) one_pos (fun x => (C36_gauss x).1) C37_gauss gaussDelta_pos
    gaussDelta_continuous delta_bounds.2 rfl (trap_externals k) (trap_sum k) r0 (fun _ => 1) a b
  obtain ⟨R, hR⟩ := C190_bounded (s := trap k) (c := 2 * k) one_pos (fun x => (C36_gauss x).1) C37_gauss gaussDelta_pos gaussDelta_continuous gauss_range
    (trap_externals k) (trap_sum k) r0 (fun _ => 1) (fun _ => one_pos) (by linarith) (fun w => (springs_form k w).ge) h3
  exact ⟨r, v, R, h1, h2, h3, hR, fun r' v' h3' h1' h2' => (C190_unique (s := trap k) one_pos (fun x => (C36_gauss x).1) C37_gauss gaussDelta_pos
    gaussDelta_continuous delta_bounds.2 rfl (trap_externals k) (trap_sum k) r0 (fun _ => 1) h3' h3 (t0 := 0) (by rw [h1, h1']) (by rw [h2, h2'])).1⟩

/-- The trajectory remains in the vicinity of the relaxed structure of the same crystal. -/
example (k : ℝ) (hk : 0 < k) (r0 : X 2 → ℝ) : ∃ rs : X 2 → ℝ, ∀ r v, Newton eigh2 level2 gauss gaussEntropy (trap k) r0 (fun _ => 1) r v → ∀ t,
    ∑ x, 1 * v t x ^ 2 / 2 + (2 * k - 2 * (1 / Real.sqrt Real.pi) / 1 * total (trap k) 0) / 4 * size (fun x => r t x - rs x) ≤
      ∑ x, 1 * v 0 x ^ 2 / 2 + stiff (1 / Real.sqrt Real.pi) (trap k) / 4 * size (fun x => r 0 x - rs x) := by
  obtain ⟨rs, hs⟩ := C190_rest (s := trap k) (c := 2 * k) (entropy := gaussEntropy) one_pos (fun x => (C36_gauss x).1) C37_gauss gaussDelta_pos gauss_range
    (trap_externals k) (trap_sum k) r0 (by linarith) fun w => (springs_form k w).ge
  exact ⟨rs, fun r v hN t => C190_stable (s := trap k) (c := 2 * k) one_pos (fun x => (C36_gauss x).1) C37_gauss gaussDelta_pos gaussDelta_continuous
    delta_bounds.2 rfl (trap_externals k) (trap_sum k) r0 (fun _ => 1) (fun _ => one_ne_zero) (fun w => (springs_form k w).ge) hs hN t⟩

end examples

end Verif.MD.Motion
