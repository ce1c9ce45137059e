import Verif.Diag.Dynamic
import Verif.Diag.Gauge
import Mathlib.Analysis.Complex.Basic
import Mathlib.Analysis.Calculus.Deriv.Inv

/-!
# Frequency dependence of the phonon self-energy (C180)

The dynamic self-energy interpolates between the limit of small frequencies, which is the static self-energy without the
contribution of states of equal energy, and the limit of large frequencies, where nothing is screened. It is causal and damps
phonons.
-/

namespace Verif.Diag

open Verif.Occ (gauss gaussDelta gaussDelta_pos C35_gauss)
open Verif.Diag.Derivatives (envelopeFn dynamicFn staticFn weights_fn)
open Filter Topology

/-! ### Several frequencies -/

section
variable {n1 n2 n3 nb : Nat} [NeZero n1] [NeZero n2] [NeZero n3]

/-- `dfde` for all elements of `omega`, `elphmod/diagrams.py` 406, 413-421: one distinction of cases for all frequencies. `none`
is a division by zero (`nan` or `inf` together with a warning). -/
noncomputable def dfdeAll (omega : List ℂ) (eps : ℝ) (e f d : Mesh n1 n2 n3 → Fin nb → ℝ) (q : Nat × Nat × Nat)
    (k : Mesh n1 n2 n3) (m n : Fin nb) : List (Option ℂ) :=
  open Classical in
  let dynamic := ∃ x ∈ omega, x ≠ 0
  omega.map fun x => if dynamic then
      if x + ((e k n - slice e q k m : ℝ) : ℂ) = 0 then none else some (dfdeOmega x e f q k m n)
    else some (dfde eps e f d q k m n : ℂ)

end

section
variable {n1 n2 n3 nb : Nat} [NeZero n1] [NeZero n2] [NeZero n3] {X : Type} [DecidableEq X]

/-- Dynamic self-energy without contact interaction for `g` on both sides. -/
noncomputable abbrev dynamicSelfEnergy (omega : ℂ) (kT : ℝ) (occ : ℝ → ℝ) (win : Option Window) (sym : Bool)
    (e : Mesh n1 n2 n3 → Fin nb → ℝ) (q : Fin 3 → ℝ) (g : Cpl n1 n2 n3 nb X) (mu nu : X) : ℂ :=
  selfEnergy sym false (weightsOmega omega kT occ win e q) (fun _ _ => 0) g none mu nu

/-- Energy change for the displacement pattern `v`. -/
noncomputable def form [Fintype X] (P : X → X → ℂ) (v : X → ℂ) : ℂ := ∑ mu, ∑ nu, star (v mu) * P mu nu * v nu

theorem selfEnergy_sum (w : Mesh n1 n2 n3 → Fin nb → Fin nb → ℂ) (g : Cpl n1 n2 n3 nb X) (sym : Bool) (mu nu : X) :
    selfEnergy sym false w (fun _ _ => 0) g none mu nu =
      2 / ((n1 * n2 * n3 : Nat) : ℂ) * ∑ k, ∑ m, ∑ n, star (g mu k m n) * g nu k m n * w k m n := by
  unfold selfEnergy contact piK
  simp only [Complex.ofReal_zero, zero_div, mul_zero, zero_mul, Finset.sum_const_zero, add_zero, Bool.false_eq_true,
    false_and, if_false]

theorem form_sum [Fintype X] (w : Mesh n1 n2 n3 → Fin nb → Fin nb → ℂ) (g : Cpl n1 n2 n3 nb X) (sym : Bool) (v : X → ℂ) :
    form (selfEnergy sym false w (fun _ _ => 0) g none) v =
      ((2 / ((n1 * n2 * n3 : Nat) : ℝ) : ℝ) : ℂ) * ∑ k, ∑ m, ∑ n, ((‖∑ nu, g nu k m n * v nu‖ ^ 2 : ℝ) : ℂ) * w k m n := by
  unfold form
  have h1 : ∀ mu nu, star (v mu) * selfEnergy sym false w (fun _ _ => 0) g none mu nu * v nu =
      2 / ((n1 * n2 * n3 : Nat) : ℂ) * ∑ k, ∑ m, ∑ n, w k m n * (star (g mu k m n * v mu) * (g nu k m n * v nu)) := by
    intro mu nu
    rw [selfEnergy_sum, mul_comm (star (v mu)), mul_assoc, mul_assoc]
    congr 1
    simp only [Finset.sum_mul]
    refine Finset.sum_congr rfl fun k _ => Finset.sum_congr rfl fun m _ => Finset.sum_congr rfl fun n _ => ?_
    rw [star_mul']
    ring
  simp only [h1]
  simp only [← Finset.mul_sum]
  push_cast
  congr 1
  have h2 : ∀ F : X → X → Mesh n1 n2 n3 → Fin nb → Fin nb → ℂ, ∑ mu, ∑ nu, ∑ k, ∑ m, ∑ n, F mu nu k m n =
      ∑ k, ∑ m, ∑ n, ∑ mu, ∑ nu, F mu nu k m n := by
    intro F
    have a1 : ∀ mu, ∑ nu, ∑ k, ∑ m, ∑ n, F mu nu k m n = ∑ k, ∑ m, ∑ n, ∑ nu, F mu nu k m n := by
      intro mu
      rw [Finset.sum_comm]
      refine Finset.sum_congr rfl fun k _ => ?_
      rw [Finset.sum_comm]
      refine Finset.sum_congr rfl fun m _ => ?_
      rw [Finset.sum_comm]
    simp only [a1]
    rw [Finset.sum_comm]
    refine Finset.sum_congr rfl fun k _ => ?_
    rw [Finset.sum_comm]
    refine Finset.sum_congr rfl fun m _ => ?_
    rw [Finset.sum_comm]
  rw [h2]
  refine Finset.sum_congr rfl fun k _ => Finset.sum_congr rfl fun m _ => Finset.sum_congr rfl fun n _ => ?_
  simp only [← Finset.mul_sum]
  rw [← Finset.sum_mul, ← star_sum, mul_comm]
  congr 1
  exact (Complex.conj_mul' _)

theorem weightsOmega_fn (omega : ℂ) (kT : ℝ) (occ : ℝ → ℝ) (win : Option Window) (e : Mesh n1 n2 n3 → Fin nb → ℝ)
    (q : Fin 3 → ℝ) (j : Mesh n1 n2 n3) (hq : OnMesh q j) (k : Mesh n1 n2 n3) (m n : Fin nb) :
    weightsOmega omega kT occ win e q k m n =
      dynamicFn omega kT occ (e k n) (e (k + j) m) * (envelopeFn win (e k n) (e (k + j) m) : ℂ) := by
  unfold weightsOmega dfdeOmega dynamicFn
  simp only [slice_q _ q j _ hq]
  congr 2
  unfold envelope envelopeFn
  cases win with
  | none => rfl
  | some w => simp only [slice_q _ q j _ hq]

theorem envelopeFn_symm (win : Option Window) (x y : ℝ) : envelopeFn win x y = envelopeFn win y x := by
  unfold envelopeFn
  cases win with
  | none => rfl
  | some w =>
    simp only
    split <;> ring

theorem envelopeFn_nonneg (win : Option Window) (hw : Window.Good win) (x y : ℝ) : 0 ≤ envelopeFn win x y := by
  unfold envelopeFn
  cases win with
  | none => exact zero_le_one
  | some w =>
    obtain ⟨h1, h2⟩ := hw w rfl
    simp only [h1]
    apply mul_nonneg
    · unfold Window.Theta
      linarith [h2 ((y - w.Delta) / w.kT), h2 ((-y - w.Delta) / w.kT)]
    · unfold Window.Theta
      linarith [h2 ((x - w.Delta) / w.kT), h2 ((-x - w.Delta) / w.kT)]

theorem tendsto_selfEnergy {F : Filter ℂ} (w : ℂ → Mesh n1 n2 n3 → Fin nb → Fin nb → ℂ)
    (w' : Mesh n1 n2 n3 → Fin nb → Fin nb → ℂ) (h : ∀ k m n, Tendsto (fun z => w z k m n) F (𝓝 (w' k m n)))
    (g : Cpl n1 n2 n3 nb X) (sym : Bool) (mu nu : X) :
    Tendsto (fun z => selfEnergy sym false (w z) (fun _ _ => 0) g none mu nu) F
      (𝓝 (selfEnergy sym false w' (fun _ _ => 0) g none mu nu)) := by
  simp only [selfEnergy_sum]
  exact Tendsto.const_mul _ (tendsto_finsetSum _ fun k _ => tendsto_finsetSum _ fun m _ => tendsto_finsetSum _ fun n _ =>
    (h k m n).const_mul _)

/-! ### Limits -/

theorem dynamicFn_equal (omega : ℂ) (kT : ℝ) (occ : ℝ → ℝ) (x : ℝ) : dynamicFn omega kT occ x x = 0 := by
  unfold dynamicFn
  simp

theorem dynamicFn_limit (kT : ℝ) (occ : ℝ → ℝ) (x y : ℝ) : Tendsto (fun z => dynamicFn z kT occ x y) (𝓝 0)
    (𝓝 (((occ (x / kT) - occ (y / kT)) / (x - y) : ℝ) : ℂ)) := by
  rcases eq_or_ne x y with rfl | h
  · simp only [dynamicFn_equal]
    simpa using tendsto_const_nhds
  · unfold dynamicFn
    rw [Complex.ofReal_div]
    refine Tendsto.div tendsto_const_nhds ?_ (Complex.ofReal_ne_zero.2 (sub_ne_zero.2 h))
    have : Tendsto (fun z : ℂ => z + ((x - y : ℝ) : ℂ)) (𝓝 0) (𝓝 (0 + ((x - y : ℝ) : ℂ))) := tendsto_id.add_const _
    rwa [zero_add] at this

/-- C180: the limit of small frequencies is the static self-energy without the contribution of pairs of states of equal energy.
(The energies at `k + q` are those `j` points further on the mesh.) -/
theorem C180_small (kT : ℝ) (occ delta : ℝ → ℝ) (sym : Bool) (e : Mesh n1 n2 n3 → Fin nb → ℝ)
    (q : Fin 3 → ℝ) (j : Mesh n1 n2 n3) (hq : OnMesh q j) (g : Cpl n1 n2 n3 nb X) (mu nu : X) :
    Tendsto (fun omega => dynamicSelfEnergy omega kT occ none sym e q g mu nu) (𝓝 0)
      (𝓝 (selfEnergy sym false (fun k m n => (weights 0 kT occ delta none e q k m n : ℂ)) (fun _ _ => 0) g none mu nu +
        2 / ((n1 * n2 * n3 : Nat) : ℂ) * ∑ k, ∑ m, ∑ n, if e k n = e (k + j) m then
          star (g mu k m n) * g nu k m n * (delta (e k n / kT) / kT : ℝ) else 0)) := by
  have h := tendsto_selfEnergy (fun z => weightsOmega z kT occ none e q)
    (fun k m n => (((occ (e k n / kT) - occ (e (k + j) m / kT)) / (e k n - e (k + j) m) : ℝ) : ℂ)) (F := 𝓝 0)
    (fun k m n => by
      simp only [weightsOmega_fn _ kT occ none e q j hq]
      have h1 : envelopeFn none (e k n) (e (k + j) m) = 1 := rfl
      simp only [h1, Complex.ofReal_one, mul_one]
      exact dynamicFn_limit kT occ _ _) g sym mu nu
  refine Tendsto.congr (fun _ => rfl) (Eq.subst (motive := fun z => Tendsto _ (𝓝 0) (𝓝 z)) ?_ h)
  rw [selfEnergy_sum, selfEnergy_sum, ← mul_add]
  congr 1
  simp only [← Finset.sum_add_distrib]
  refine Finset.sum_congr rfl fun k _ => Finset.sum_congr rfl fun m _ => Finset.sum_congr rfl fun n _ => ?_
  rw [weights_fn 0 kT occ delta none e q j hq]
  have h1 : envelopeFn none (e k n) (e (k + j) m) = 1 := rfl
  rw [h1, mul_one]
  unfold staticFn
  by_cases he : e k n = e (k + j) m
  · rw [if_pos he, if_neg (by rw [he]; simp), he]
    push_cast
    simp
    ring
  · rw [if_neg he, if_pos (abs_pos.2 (sub_ne_zero.2 he)), add_zero]

example (e : Mesh 6 6 1 → Fin 2 → ℝ) (g : Cpl 6 6 1 2 (Fin 9)) :=
  C180_small 0.025 gauss gaussDelta true e ![2 * Real.pi * (1 / 6 + 3), 0, 0] (1, 0, 0)
    ⟨![3, 0, 0], by norm_num, by norm_num, by simp⟩ g

/-- C180: a single band does not screen uniform displacements in the dynamic case, whereas it does so in the static case if it is
metallic. -/
theorem C180_intraband (kT : ℝ) (occ delta : ℝ → ℝ) (sym : Bool) (e : Mesh n1 n2 n3 → Fin 1 → ℝ)
    (g : Cpl n1 n2 n3 1 X) (nu : X) :
    (∀ omega mu, dynamicSelfEnergy omega kT occ none sym e (fun _ => 0) g mu nu = 0) ∧
      ∀ eps : ℝ, 0 ≤ eps → selfEnergy sym false (fun k m n => (weights eps kT occ delta none e (fun _ => 0) k m n : ℂ))
        (fun _ _ => 0) g none nu nu =
          ((-(2 / ((n1 * n2 * n3 : Nat) : ℝ) * ∑ k, ‖g nu k 0 0‖ ^ 2 * delta (e k 0 / kT) / kT) : ℝ) : ℂ) := by
  have hq : OnMesh (fun _ => 0) (0 : Mesh n1 n2 n3) := ⟨fun _ => 0, by simp, by simp, by simp⟩
  constructor
  · intro omega mu
    show selfEnergy sym false _ _ g none mu nu = 0
    rw [selfEnergy_sum]
    simp only [weightsOmega_fn omega kT occ none e _ 0 hq, add_zero, Fin.sum_univ_one, Fin.isValue, dynamicFn_equal, zero_mul,
      mul_zero, Finset.sum_const_zero]
  · intro eps heps
    rw [selfEnergy_sum]
    simp only [weights_fn eps kT occ delta none e _ 0 hq, add_zero, Fin.sum_univ_one, Fin.isValue]
    have h1 : ∀ x, envelopeFn none x x = 1 := fun _ => rfl
    have h2 : ∀ x, staticFn eps kT occ delta x x = -(delta (x / kT) / kT) := by
      intro x
      unfold staticFn
      rw [if_neg (by simpa using heps), div_neg]
    simp only [h1, h2, mul_one]
    rw [Complex.ofReal_neg, Complex.ofReal_mul, ← mul_neg]
    push_cast
    congr 1
    rw [← Finset.sum_neg_distrib]
    refine Finset.sum_congr rfl fun k _ => ?_
    rw [show star (g nu k 0 0) * g nu k 0 0 = ((‖g nu k 0 0‖ : ℂ)) ^ 2 from Complex.conj_mul' _]
    ring

/-- A metallic band with constant coupling: screening in the static case only. -/
example (e : Mesh 6 6 1 → Fin 1 → ℝ) : ∃ r : ℝ, r < 0 ∧ selfEnergy true false
    (fun k m n => (weights 1e-10 0.025 gauss gaussDelta none e (fun _ => 0) k m n : ℂ)) (fun _ _ => 0)
      (fun _ _ _ _ => 1 : Cpl 6 6 1 1 (Fin 1)) none 0 0 = r := by
  refine ⟨_, ?_, (C180_intraband 0.025 gauss gaussDelta true e (fun _ _ _ _ => 1) 0).2 1e-10 (by norm_num)⟩
  rw [neg_lt_zero]
  refine mul_pos (by norm_num) (Finset.sum_pos (fun k _ => ?_) ⟨0, Finset.mem_univ 0⟩)
  have := gaussDelta_pos (e k 0 / 0.025)
  simp only [norm_one]
  positivity

/-- C180: nothing is screened at large frequencies, the leading term being inversely proportional to the frequency. -/
theorem C180_large (kT : ℝ) (occ : ℝ → ℝ) (sym : Bool) (e : Mesh n1 n2 n3 → Fin nb → ℝ)
    (q : Fin 3 → ℝ) (j : Mesh n1 n2 n3) (hq : OnMesh q j) (g : Cpl n1 n2 n3 nb X) (mu nu : X) :
    Tendsto (fun omega => dynamicSelfEnergy omega kT occ none sym e q g mu nu) (Bornology.cobounded ℂ) (𝓝 0) ∧
      Tendsto (fun omega => omega * dynamicSelfEnergy omega kT occ none sym e q g mu nu) (Bornology.cobounded ℂ)
        (𝓝 (2 / ((n1 * n2 * n3 : Nat) : ℂ) * ∑ k, ∑ m, ∑ n,
          star (g mu k m n) * g nu k m n * (occ (e k n / kT) - occ (e (k + j) m / kT) : ℝ))) := by
  have hi : Tendsto (fun z : ℂ => z⁻¹) (Bornology.cobounded ℂ) (𝓝 0) := tendsto_inv₀_cobounded
  have hne : ∀ᶠ z : ℂ in Bornology.cobounded ℂ, z ≠ 0 :=
    Bornology.isBounded_def.1 (Bornology.isBounded_singleton (x := (0 : ℂ)))
  have h1 : ∀ (a d : ℂ), Tendsto (fun z : ℂ => z * (a / (z + d))) (Bornology.cobounded ℂ) (𝓝 a) := by
    intro a d
    have h : Tendsto (fun z : ℂ => a / (1 + d * z⁻¹)) (Bornology.cobounded ℂ) (𝓝 (a / (1 + d * 0))) :=
      Tendsto.div tendsto_const_nhds (tendsto_const_nhds.add (hi.const_mul d)) (by simp)
    rw [mul_zero, add_zero, div_one] at h
    refine h.congr' ?_
    filter_upwards [hne] with z hz
    rw [show 1 + d * z⁻¹ = (z + d) / z by field_simp, div_div_eq_mul_div]
    ring
  have h2 : Tendsto (fun omega => omega * dynamicSelfEnergy omega kT occ none sym e q g mu nu) (Bornology.cobounded ℂ)
        (𝓝 (2 / ((n1 * n2 * n3 : Nat) : ℂ) * ∑ k, ∑ m, ∑ n,
          star (g mu k m n) * g nu k m n * (occ (e k n / kT) - occ (e (k + j) m / kT) : ℝ))) := by
    have h := tendsto_selfEnergy (fun z k m n => z * weightsOmega z kT occ none e q k m n)
      (fun k m n => ((occ (e k n / kT) - occ (e (k + j) m / kT) : ℝ) : ℂ)) (F := Bornology.cobounded ℂ)
      (fun k m n => by
        simp only [weightsOmega_fn _ kT occ none e q j hq]
        have h1' : envelopeFn none (e k n) (e (k + j) m) = 1 := rfl
        simp only [h1', Complex.ofReal_one, mul_one]
        exact h1 _ _) g sym mu nu
    rw [selfEnergy_sum] at h
    refine h.congr fun z => ?_
    show _ = z * selfEnergy sym false _ _ g none mu nu
    rw [selfEnergy_sum, selfEnergy_sum, mul_left_comm]
    congr 1
    simp only [Finset.mul_sum]
    refine Finset.sum_congr rfl fun k _ => Finset.sum_congr rfl fun m _ => Finset.sum_congr rfl fun n _ => ?_
    ring
  refine ⟨?_, h2⟩
  have h3 := hi.mul h2
  rw [zero_mul] at h3
  refine h3.congr' ?_
  filter_upwards [hne] with z hz
  rw [← mul_assoc, inv_mul_cancel₀ hz, one_mul]

example (e : Mesh 6 6 1 → Fin 2 → ℝ) (g : Cpl 6 6 1 2 (Fin 9)) :=
  C180_large 0.025 gauss true e ![2 * Real.pi * (1 / 6 + 3), 0, 0] (1, 0, 0)
    ⟨![3, 0, 0], by norm_num, by norm_num, by simp⟩ g

/-! ### Causality and damping -/

/-- C180: the self-energy is analytic away from the real axis, in particular in the upper half plane (it is causal). -/
theorem C180_causal (kT : ℝ) (occ : ℝ → ℝ) (win : Option Window) (sym : Bool) (e : Mesh n1 n2 n3 → Fin nb → ℝ)
    (q : Fin 3 → ℝ) (g : Cpl n1 n2 n3 nb X) (mu nu : X) :
    DifferentiableOn ℂ (fun omega => dynamicSelfEnergy omega kT occ win sym e q g mu nu) {z | z.im ≠ 0} := by
  show DifferentiableOn ℂ (fun omega => selfEnergy sym false _ _ g none mu nu) _
  simp only [selfEnergy_sum]
  refine DifferentiableOn.const_mul (DifferentiableOn.fun_sum fun k _ => DifferentiableOn.fun_sum fun m _ =>
    DifferentiableOn.fun_sum fun n _ => DifferentiableOn.const_mul ?_ _) _
  unfold weightsOmega dfdeOmega
  refine DifferentiableOn.mul_const (DifferentiableOn.div (differentiableOn_const _) (differentiableOn_id.add_const _) ?_) _
  intro z hz h
  apply hz
  have := congrArg Complex.im h
  simpa using this

example (e : Mesh 6 6 1 → Fin 2 → ℝ) (q : Fin 3 → ℝ) (g : Cpl 6 6 1 2 (Fin 9)) :=
  C180_causal 0.025 gauss none true e q g

theorem occ_mul_nonpos (kT : ℝ) (hkT : 0 < kT) (occ : ℝ → ℝ) (ho : Antitone occ) (x y : ℝ) :
    (occ (x / kT) - occ (y / kT)) * (x - y) ≤ 0 := by
  rcases le_total x y with h | h
  · have := ho (div_le_div_of_nonneg_right h hkT.le)
    exact mul_nonpos_of_nonneg_of_nonpos (by linarith) (by linarith)
  · have := ho (div_le_div_of_nonneg_right h hkT.le)
    exact mul_nonpos_of_nonpos_of_nonneg (by linarith) (by linarith)

theorem dynamicFn_imaginary (t : ℝ) (kT : ℝ) (occ : ℝ → ℝ) (x y : ℝ) :
    (dynamicFn (t * Complex.I) kT occ x y).re = (occ (x / kT) - occ (y / kT)) * (x - y) / (t ^ 2 + (x - y) ^ 2) := by
  unfold dynamicFn
  rw [Complex.div_re]
  simp [Complex.normSq_apply]
  ring

theorem div_mono_nonpos {a b c : ℝ} (ha : a ≤ 0) (hb : 0 < b) (hbc : b ≤ c) : a / b ≤ a / c := by
  have := div_le_div_of_nonneg_left (neg_nonneg.2 ha) hb hbc
  rw [neg_div, neg_div] at this
  linarith

/-- C180: at imaginary frequencies, the screening decreases monotonically from the static value to zero. -/
theorem C180_imaginary [Fintype X] (kT : ℝ) (hkT : 0 < kT) (occ delta : ℝ → ℝ) (ho : Antitone occ)
    (hd : ∀ x, 0 ≤ delta x) (win : Option Window) (hw : Window.Good win) (sym : Bool)
    (e : Mesh n1 n2 n3 → Fin nb → ℝ) (q : Fin 3 → ℝ) (j : Mesh n1 n2 n3) (hq : OnMesh q j) (g : Cpl n1 n2 n3 nb X) (v : X → ℂ)
    (s t : ℝ) (hs : 0 < s) (hst : s ≤ t) :
    (form (selfEnergy sym false (fun k m n => (weights 0 kT occ delta win e q k m n : ℂ)) (fun _ _ => 0) g none) v).re ≤
        (form (dynamicSelfEnergy (s * Complex.I) kT occ win sym e q g) v).re ∧
      (form (dynamicSelfEnergy (s * Complex.I) kT occ win sym e q g) v).re ≤
        (form (dynamicSelfEnergy (t * Complex.I) kT occ win sym e q g) v).re ∧
      (form (dynamicSelfEnergy (t * Complex.I) kT occ win sym e q g) v).re ≤ 0 := by
  have key : ∀ w : Mesh n1 n2 n3 → Fin nb → Fin nb → ℂ, (form (selfEnergy sym false w (fun _ _ => 0) g none) v).re =
      2 / ((n1 * n2 * n3 : Nat) : ℝ) * ∑ k, ∑ m, ∑ n, ‖∑ nu, g nu k m n * v nu‖ ^ 2 * (w k m n).re := by
    intro w
    rw [form_sum, Complex.re_ofReal_mul]
    congr 1
    simp only [Complex.re_sum, Complex.re_ofReal_mul]
  have mono : ∀ w w' : Mesh n1 n2 n3 → Fin nb → Fin nb → ℂ, (∀ k m n, (w k m n).re ≤ (w' k m n).re) →
      (form (selfEnergy sym false w (fun _ _ => 0) g none) v).re ≤
        (form (selfEnergy sym false w' (fun _ _ => 0) g none) v).re := by
    intro w w' h
    rw [key, key]
    refine mul_le_mul_of_nonneg_left ?_ (by positivity)
    refine Finset.sum_le_sum fun k _ => Finset.sum_le_sum fun m _ => Finset.sum_le_sum fun n _ => ?_
    exact mul_le_mul_of_nonneg_left (h k m n) (sq_nonneg _)
  have hre : ∀ (u : ℝ) (k : Mesh n1 n2 n3) (m n : Fin nb), (weightsOmega (u * Complex.I) kT occ win e q k m n).re =
      (occ (e k n / kT) - occ (e (k + j) m / kT)) * (e k n - e (k + j) m) / (u ^ 2 + (e k n - e (k + j) m) ^ 2) *
        envelopeFn win (e k n) (e (k + j) m) := by
    intro u k m n
    rw [weightsOmega_fn _ kT occ win e q j hq, Complex.re_mul_ofReal, dynamicFn_imaginary]
  have henv := fun k m n => envelopeFn_nonneg win hw (e k n) (e (k + j) m)
  have hneg := fun (k : Mesh n1 n2 n3) (m n : Fin nb) => occ_mul_nonpos kT hkT occ ho (e k n) (e (k + j) m)
  refine ⟨mono _ _ fun k m n => ?_, mono _ _ fun k m n => ?_, ?_⟩
  · rw [hre, Complex.ofReal_re, weights_fn 0 kT occ delta win e q j hq]
    refine mul_le_mul_of_nonneg_right ?_ (henv k m n)
    unfold staticFn
    by_cases he : e k n = e (k + j) m
    · rw [if_neg (by rw [he]; simp), he]
      simp only [sub_self, zero_mul, zero_div]
      rw [div_neg, neg_nonpos]
      exact div_nonneg (hd _) hkT.le
    · have h0 : e k n - e (k + j) m ≠ 0 := sub_ne_zero.2 he
      rw [if_pos (abs_pos.2 h0)]
      have h1 : (occ (e k n / kT) - occ (e (k + j) m / kT)) / (e k n - e (k + j) m) =
          (occ (e k n / kT) - occ (e (k + j) m / kT)) * (e k n - e (k + j) m) / (e k n - e (k + j) m) ^ 2 := by
        field_simp
      rw [h1]
      have h2 : 0 < (e k n - e (k + j) m) ^ 2 := by positivity
      exact div_mono_nonpos (hneg k m n) h2 (by nlinarith)
  · rw [hre, hre]
    refine mul_le_mul_of_nonneg_right ?_ (henv k m n)
    exact div_mono_nonpos (hneg k m n) (by positivity) (by nlinarith)
  · rw [key]
    refine mul_nonpos_of_nonneg_of_nonpos (by positivity) ?_
    refine Finset.sum_nonpos fun k _ => Finset.sum_nonpos fun m _ => Finset.sum_nonpos fun n _ => ?_
    refine mul_nonpos_of_nonneg_of_nonpos (sq_nonneg _) ?_
    rw [hre]
    exact mul_nonpos_of_nonpos_of_nonneg (div_nonpos_of_nonpos_of_nonneg (hneg k m n) (by positivity)) (henv k m n)

example (e : Mesh 6 6 1 → Fin 2 → ℝ) (g : Cpl 6 6 1 2 (Fin 9)) (v : Fin 9 → ℂ) :=
  C180_imaginary 0.025 (by norm_num) gauss gaussDelta C35_gauss.anti.antitone (fun x => (gaussDelta_pos x).le) none
    (fun w hw => absurd hw (by simp)) true e ![2 * Real.pi * (1 / 6 + 3), 0, 0] (1, 0, 0)
    ⟨![3, 0, 0], by norm_num, by norm_num, by simp⟩ g v 0.1 0.2 (by norm_num) (by norm_num)

theorem dynamicFn_im (z : ℂ) (kT : ℝ) (occ : ℝ → ℝ) (x y : ℝ) :
    (dynamicFn z kT occ x y).im = -((occ (x / kT) - occ (y / kT)) * z.im / ((z.re + (x - y)) ^ 2 + z.im ^ 2)) := by
  unfold dynamicFn
  rw [Complex.div_im]
  simp [Complex.normSq_apply]
  ring

theorem damping_pair (z : ℂ) (hr : 0 ≤ z.re) (hi : 0 < z.im) (kT : ℝ) (hkT : 0 < kT) (occ : ℝ → ℝ) (ho : Antitone occ)
    (x y : ℝ) : (dynamicFn z kT occ x y).im + (dynamicFn (-z) kT occ x y).im ≤ 0 := by
  rw [dynamicFn_im, dynamicFn_im, Complex.neg_re, Complex.neg_im]
  have h := occ_mul_nonpos kT hkT occ ho x y
  set df := occ (x / kT) - occ (y / kT)
  set d := x - y
  have hp : 0 < (z.re + d) ^ 2 + z.im ^ 2 := by positivity
  have hm : 0 < (-z.re + d) ^ 2 + (-z.im) ^ 2 := by rw [neg_sq]; positivity
  have h1 : -(df * z.im / ((z.re + d) ^ 2 + z.im ^ 2)) + -(df * -z.im / ((-z.re + d) ^ 2 + (-z.im) ^ 2)) =
      4 * z.re * z.im * (df * d) / (((z.re + d) ^ 2 + z.im ^ 2) * ((-z.re + d) ^ 2 + (-z.im) ^ 2)) := by
    field_simp
    ring
  rw [h1]
  exact div_nonpos_of_nonpos_of_nonneg (mul_nonpos_of_nonneg_of_nonpos (by positivity) h) (by positivity)

theorem form_im [Fintype X] (w : Mesh n1 n2 n3 → Fin nb → Fin nb → ℂ) (g : Cpl n1 n2 n3 nb X) (sym : Bool) (v : X → ℂ) :
    (form (selfEnergy sym false w (fun _ _ => 0) g none) v).im =
      2 / ((n1 * n2 * n3 : Nat) : ℝ) * ∑ k, ∑ m, ∑ n, ‖∑ nu, g nu k m n * v nu‖ ^ 2 * (w k m n).im := by
  rw [form_sum, Complex.im_ofReal_mul]
  congr 1
  simp only [Complex.im_sum, Complex.im_ofReal_mul]

theorem form_pair [Fintype X] (z : ℂ) (hr : 0 ≤ z.re) (hi : 0 < z.im) (kT : ℝ) (hkT : 0 < kT) (occ : ℝ → ℝ)
    (ho : Antitone occ) (win : Option Window) (hw : Window.Good win) (sym : Bool) (e : Mesh n1 n2 n3 → Fin nb → ℝ)
    (q : Fin 3 → ℝ) (j : Mesh n1 n2 n3) (hq : OnMesh q j) (g : Cpl n1 n2 n3 nb X) (v : X → ℂ) :
    (form (dynamicSelfEnergy z kT occ win sym e q g) v).im + (form (dynamicSelfEnergy (-z) kT occ win sym e q g) v).im ≤ 0 := by
  show (form (selfEnergy sym false _ _ g none) v).im + (form (selfEnergy sym false _ _ g none) v).im ≤ 0
  rw [form_im, form_im, ← mul_add]
  refine mul_nonpos_of_nonneg_of_nonpos (by positivity) ?_
  simp only [← Finset.sum_add_distrib]
  refine Finset.sum_nonpos fun k _ => Finset.sum_nonpos fun m _ => Finset.sum_nonpos fun n _ => ?_
  rw [← mul_add]
  refine mul_nonpos_of_nonneg_of_nonpos (sq_nonneg _) ?_
  rw [weightsOmega_fn _ kT occ win e q j hq, weightsOmega_fn _ kT occ win e q j hq, Complex.im_mul_ofReal,
    Complex.im_mul_ofReal, ← add_mul]
  exact mul_nonpos_of_nonpos_of_nonneg (damping_pair z hr hi kT hkT occ ho _ _) (envelopeFn_nonneg win hw _ _)

/-- C180: phonons of positive frequency are damped, on average over the phonon at `q` and that with the complex conjugate
displacements at `-q`. -/
theorem C180_damping_average [Fintype X] (z : ℂ) (hr : 0 ≤ z.re) (hi : 0 < z.im) (kT : ℝ) (hkT : 0 < kT) (occ : ℝ → ℝ)
    (ho : Antitone occ) (win : Option Window) (hw : Window.Good win) (sym : Bool) (e : Mesh n1 n2 n3 → Fin nb → ℝ)
    (q p : Fin 3 → ℝ) (j : Mesh n1 n2 n3) (hq : OnMesh q j) (hp : OnMesh p (-j)) (g G : Cpl n1 n2 n3 nb X)
    (hg : ∀ x k m n, G x (k + j) n m = star (g x k m n)) (v : X → ℂ) :
    (form (dynamicSelfEnergy z kT occ win sym e q g) v).im +
      (form (dynamicSelfEnergy z kT occ win sym e p G) (fun x => star (v x))).im ≤ 0 := by
  have h : form (dynamicSelfEnergy z kT occ win sym e p G) (fun x => star (v x)) =
      form (dynamicSelfEnergy (-z) kT occ win sym e q g) v := by
    unfold form
    rw [Finset.sum_comm]
    refine Finset.sum_congr rfl fun mu _ => Finset.sum_congr rfl fun nu _ => ?_
    have := C87_inversion (-z) kT occ win sym e q p j hq hp g G hg nu mu
    rw [neg_neg] at this
    show star (star (v nu)) * selfEnergy sym false _ _ G none nu mu * star (v mu) = _
    rw [this, star_star]
    ring
  rw [h]
  exact form_pair z hr hi kT hkT occ ho win hw sym e q j hq g v

example (e : Mesh 6 6 1 → Fin 2 → ℝ) (g : Cpl 6 6 1 2 (Fin 9)) (v : Fin 9 → ℂ) :=
  C180_damping_average (0.1 + 0.01 * Complex.I) (by norm_num) (by norm_num) 0.025 (by norm_num) gauss C35_gauss.anti.antitone none
    (fun w hw => absurd hw (by simp)) true e ![2 * Real.pi * (1 / 6 + 3), 0, 0] ![2 * Real.pi * (5 / 6), 0, 0]
    (1, 0, 0) ⟨![3, 0, 0], by norm_num, by norm_num, by simp⟩ ⟨![0, 0, 0], by norm_num, by norm_num, by simp⟩ g
    (fun x k m n => star (g x (k - (1, 0, 0)) n m)) (fun x k m n => by rw [add_sub_cancel_right]) v

theorem sum_reverse (F : Mesh n1 n2 n3 → Fin nb → Fin nb → ℝ) (j : Mesh n1 n2 n3) :
    ∑ k, ∑ m, ∑ n, F (-(k + j)) n m = ∑ k, ∑ m, ∑ n, F k m n := by
  rw [← ((Equiv.addRight j).trans (Equiv.neg _)).sum_comp (fun k => ∑ m, ∑ n, F k m n)]
  refine Finset.sum_congr rfl fun k _ => ?_
  rw [Finset.sum_comm]
  rfl

/-- C180: with time-reversal symmetry, every phonon of positive frequency is damped: no displacement pattern has a self-energy
with positive imaginary part. -/
theorem C180_damping [Fintype X] (z : ℂ) (hr : 0 ≤ z.re) (hi : 0 < z.im) (kT : ℝ) (hkT : 0 < kT) (occ : ℝ → ℝ)
    (ho : Antitone occ) (win : Option Window) (hw : Window.Good win) (sym : Bool) (e : Mesh n1 n2 n3 → Fin nb → ℝ)
    (he : ∀ k n, e (-k) n = e k n) (q : Fin 3 → ℝ) (j : Mesh n1 n2 n3) (hq : OnMesh q j) (g : Cpl n1 n2 n3 nb X)
    (hg : ∀ x k m n, g x (-(k + j)) n m = g x k m n) (v : X → ℂ) :
    (form (dynamicSelfEnergy z kT occ win sym e q g) v).im ≤ 0 := by
  have h : (form (dynamicSelfEnergy z kT occ win sym e q g) v).im =
      (form (dynamicSelfEnergy (-z) kT occ win sym e q g) v).im := by
    show (form (selfEnergy sym false _ _ g none) v).im = (form (selfEnergy sym false _ _ g none) v).im
    rw [form_im, form_im, ← sum_reverse _ j]
    congr 1
    refine Finset.sum_congr rfl fun k _ => Finset.sum_congr rfl fun m _ => Finset.sum_congr rfl fun n _ => ?_
    simp only [hg]
    rw [weightsOmega_fn _ kT occ win e q j hq, weightsOmega_fn _ kT occ win e q j hq]
    rw [show -(k + j) + j = -k by abel, he, he, envelopeFn_symm]
    congr 3
    unfold dynamicFn
    rw [← neg_div_neg_eq]
    congr 1
    · push_cast
      ring
    · push_cast
      ring
  have := form_pair z hr hi kT hkT occ ho win hw sym e q j hq g v
  linarith

/-- Two bands with constant coupling. -/
example (c : Fin 9 → Fin 2 → ℂ) (v : Fin 9 → ℂ) :=
  C180_damping (0.1 + 0.01 * Complex.I) (by norm_num) (by norm_num) 0.025 (by norm_num) gauss C35_gauss.anti.antitone none
    (fun w hw => absurd hw (by simp)) true (fun k n => Real.cos (2 * Real.pi * k.1.val / 6) + n : Mesh 6 6 1 → Fin 2 → ℝ)
    (fun k n => by
      simp only [add_left_inj, Prod.fst_neg]
      rcases eq_or_ne k.1 0 with h | h
      · rw [h]; simp
      · have : ((-k.1 : Fin 6) : ℕ) = 6 - (k.1 : ℕ) := by
          rw [Fin.val_neg, if_neg h]
        rw [this, Nat.cast_sub k.1.isLt.le, show 2 * Real.pi * (((6 : ℕ) : ℝ) - (k.1.val : ℝ)) / 6 = 2 * Real.pi - 2 * Real.pi * k.1.val / 6 by
          push_cast; ring, Real.cos_two_pi_sub])
    ![2 * Real.pi * (1 / 6 + 3), 0, 0] (1, 0, 0)
    ⟨![3, 0, 0], by norm_num, by norm_num, by simp⟩ (fun x _ m n => c x m * c x n) (fun x k m n => mul_comm _ _) v

/-! ### Zero as one of several frequencies -/

/-- C180: if all frequencies are zero, `eps` prevents divisions by zero. -/
theorem C180_static (omega : List ℂ) (h : ∀ x ∈ omega, x = 0) (eps : ℝ) (e f d : Mesh n1 n2 n3 → Fin nb → ℝ)
    (q : Nat × Nat × Nat) (k : Mesh n1 n2 n3) (m n : Fin nb) :
    dfdeAll omega eps e f d q k m n = omega.map fun _ => some (dfde eps e f d q k m n : ℂ) := by
  unfold dfdeAll
  refine List.map_congr_left fun x _ => ?_
  rw [if_neg]
  rintro ⟨y, hy, h0⟩
  exact h0 (h y hy)

example (e f d : Mesh 6 6 1 → Fin 2 → ℝ) := C180_static [0, 0] (by simp) 1e-10 e f d (1, 0, 0)

/-- C180: frequencies with nonzero imaginary part do not cause divisions by zero and do not affect each other. -/
theorem C180_several (omega : List ℂ) (h : ∀ x ∈ omega, x.im ≠ 0) (eps : ℝ) (e f d : Mesh n1 n2 n3 → Fin nb → ℝ)
    (q : Nat × Nat × Nat) (k : Mesh n1 n2 n3) (m n : Fin nb) :
    dfdeAll omega eps e f d q k m n = omega.map fun x => some (dfdeOmega x e f q k m n) := by
  unfold dfdeAll
  refine List.map_congr_left fun x hx => ?_
  rw [if_pos ⟨x, hx, fun h0 => h x hx (by rw [h0]; rfl)⟩, if_neg]
  intro h0
  apply h x hx
  have := congrArg Complex.im h0
  simpa using this

example (e f d : Mesh 6 6 1 → Fin 2 → ℝ) :=
  C180_several [0.1 * Complex.I, 1 + 0.1 * Complex.I] (by norm_num) 1e-10 e f d (1, 0, 0)

/-- C180: the element zero of an array of frequencies with a nonzero element is not treated as the frequency zero alone: `eps`
has no effect and all contributions within a band are undefined for vanishing `q`. -/
theorem C180_zero_violated (omega : List ℂ) (x : ℂ) (hx : x ≠ 0) (eps : ℝ) (heps : 0 ≤ eps)
    (e f d : Mesh n1 n2 n3 → Fin nb → ℝ) (k : Mesh n1 n2 n3) (n : Fin nb) :
    (dfdeAll (0 :: x :: omega) eps e f d (0, 0, 0) k n n)[0]? = some none ∧
      dfdeAll [0] eps e f d (0, 0, 0) k n n = [some (d k n : ℂ)] := by
  have hs : slice e (0, 0, 0) k n = e k n := by
    rw [slice_eq]
    congr 1
    show k + _ = k
    ext <;> simp
  constructor
  · unfold dfdeAll
    simp only [List.map_cons, List.getElem?_cons_zero, hs, sub_self, Complex.ofReal_zero, add_zero, if_true]
    rw [if_pos ⟨x, by simp, hx⟩]
  · rw [C180_static [0] (by simp)]
    unfold dfde
    simp only [hs, sub_self, abs_zero, List.map_cons, List.map_nil]
    rw [if_neg (not_lt.2 heps)]

example (e f d : Mesh 6 6 1 → Fin 2 → ℝ) := C180_zero_violated [] (0.1 + 0.01 * Complex.I)
  (fun h => by have := congrArg Complex.im h; norm_num at this) 1e-10 (by norm_num) e f d 0 1

end

end Verif.Diag
