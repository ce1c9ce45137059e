import Verif.Diag.SelfEnergy

/-!
# Phonon self-energy: dynamic case and excluded window (C87)
-/

namespace Verif.Diag

open Verif.Occ (gauss gaussDelta gaussDelta_pos C35_gauss C36_gauss)
open Filter Topology

section
variable {n1 n2 n3 nb : Nat} [NeZero n1] [NeZero n2] [NeZero n3] {X : Type} [DecidableEq X]

/-- Weights in the dynamic case, `elphmod/diagrams.py` 353-354, 410-431. -/
noncomputable def weightsOmega (omega : ℂ) (kT : ℝ) (occ : ℝ → ℝ) (win : Option Window)
    (e : Mesh n1 n2 n3 → Fin nb → ℝ) (q : Fin 3 → ℝ) (k : Mesh n1 n2 n3) (m n : Fin nb) : ℂ :=
  let qi := qIndices n1 n2 n3 q
  dfdeOmega omega e (fun k n => occ (e k n / kT)) qi k m n * (envelope win e qi k m n : ℂ)

/-- C87: complex conjugation of the frequency gives the Hermitian conjugate. -/
theorem C87_hermitian (omega : ℂ) (kT : ℝ) (occ : ℝ → ℝ) (win : Option Window) (symmetrize diagonal : Bool)
    (e : Mesh n1 n2 n3 → Fin nb → ℝ) (q : Fin 3 → ℝ) (g : Cpl n1 n2 n3 nb X) (mu nu : X) :
    star (selfEnergy symmetrize diagonal (weightsOmega omega kT occ win e q) (fun _ _ => 0) g none mu nu) =
      selfEnergy symmetrize diagonal (weightsOmega (star omega) kT occ win e q) (fun _ _ => 0) g none nu mu := by
  unfold selfEnergy contact
  simp only [Complex.ofReal_zero, zero_div, mul_zero, zero_mul, Finset.sum_const_zero, add_zero]
  rw [star_mul', star_pre]
  congr 1
  simp only [star_sum]
  refine Finset.sum_congr rfl fun k _ => Finset.sum_congr rfl fun m _ => Finset.sum_congr rfl fun n _ => ?_
  unfold piK
  by_cases h : diagonal ∧ mu ≠ nu
  · rw [if_pos h, if_pos ⟨h.1, h.2.symm⟩]
    simp
  · rw [if_neg h, if_neg fun h' => h ⟨h'.1, h'.2.symm⟩]
    have hw : star (weightsOmega omega kT occ win e q k m n) = weightsOmega (star omega) kT occ win e q k m n := by
      unfold weightsOmega dfdeOmega
      simp only [star_mul', star_div₀, star_add, star_real]
    simp only [star_mul', star_star, hw]
    ring

example (e : Mesh 6 6 1 → Fin 2 → ℝ) (g : Cpl 6 6 1 2 (Fin 9)) :=
  C87_hermitian (0.1 + 0.01 * Complex.I) 0.025 gauss none true false e ![2 * Real.pi * (1 / 6 + 3), 0, 0] g

/-- C87: the self-energy for `-q` and `-ω` is the transposed one for `q` and `ω` if the coupling is that of a Hermitian
perturbation. -/
theorem C87_inversion (omega : ℂ) (kT : ℝ) (occ : ℝ → ℝ) (win : Option Window) (symmetrize : Bool)
    (e : Mesh n1 n2 n3 → Fin nb → ℝ) (q p : Fin 3 → ℝ) (j : Mesh n1 n2 n3) (hq : OnMesh q j) (hp : OnMesh p (-j))
    (g G : Cpl n1 n2 n3 nb X) (hg : ∀ x k m n, G x (k + j) n m = star (g x k m n)) (mu nu : X) :
    selfEnergy symmetrize false (weightsOmega (-omega) kT occ win e p) (fun _ _ => 0) G none mu nu =
      selfEnergy symmetrize false (weightsOmega omega kT occ win e q) (fun _ _ => 0) g none nu mu := by
  have hw : ∀ k m n, weightsOmega (-omega) kT occ win e p (k + j) n m = weightsOmega omega kT occ win e q k m n := by
    intro k m n
    unfold weightsOmega dfdeOmega
    simp only [slice_q _ q j _ hq, slice_q _ p (-j) _ hp, add_neg_cancel_right]
    have h1 : envelope win e (qIndices n1 n2 n3 p) (k + j) n m = envelope win e (qIndices n1 n2 n3 q) k m n := by
      unfold envelope
      cases win with
      | none => rfl
      | some w =>
        simp only [slice_q _ q j _ hq, slice_q _ p (-j) _ hp, add_neg_cancel_right]
        split <;> ring
    rw [h1]
    congr 1
    rw [← neg_div_neg_eq]
    congr 1
    · push_cast
      ring
    · push_cast
      ring
  unfold selfEnergy contact
  simp only [Complex.ofReal_zero, zero_div, mul_zero, zero_mul, Finset.sum_const_zero, add_zero]
  congr 1
  rw [← sum_shift _ j]
  refine Finset.sum_congr rfl fun k _ => ?_
  rw [Finset.sum_comm]
  refine Finset.sum_congr rfl fun m _ => Finset.sum_congr rfl fun n _ => ?_
  unfold piK
  simp only [Bool.false_eq_true, false_and, if_false, hg, hw, star_star]
  ring

example (e : Mesh 6 6 1 → Fin 2 → ℝ) (g : Cpl 6 6 1 2 (Fin 9)) :=
  C87_inversion (0.1 + 0.01 * Complex.I) 0.025 gauss none true e ![2 * Real.pi * (1 / 6 + 3), 0, 0] ![2 * Real.pi * (5 / 6), 0, 0]
    (1, 0, 0) ⟨![3, 0, 0], by norm_num, by norm_num, by simp⟩ ⟨![0, 0, 0], by norm_num, by norm_num, by simp⟩ g
    (fun x k m n => star (g x (k - (1, 0, 0)) n m)) fun x k m n => by rw [add_sub_cancel_right]

/-- C87: the static limit of the dynamic result is the static result if no two energies that are coupled are equal. -/
theorem C87_static (kT : ℝ) (occ delta : ℝ → ℝ) (win : Option Window) (symmetrize diagonal : Bool)
    (e : Mesh n1 n2 n3 → Fin nb → ℝ) (q : Fin 3 → ℝ) (g : Cpl n1 n2 n3 nb X)
    (hne : ∀ k m n, e k n ≠ slice e (qIndices n1 n2 n3 q) k m) (mu nu : X) :
    Tendsto (fun omega => selfEnergy symmetrize diagonal (weightsOmega omega kT occ win e q) (fun _ _ => 0) g none mu nu)
      (𝓝 0) (𝓝 (selfEnergy symmetrize diagonal (fun k m n => (weights 0 kT occ delta win e q k m n : ℂ)) (fun _ _ => 0) g
        none mu nu)) := by
  have hw : ∀ k m n, Tendsto (fun omega => weightsOmega omega kT occ win e q k m n) (𝓝 0)
      (𝓝 (weights 0 kT occ delta win e q k m n : ℂ)) := by
    intro k m n
    have hd : ((e k n - slice e (qIndices n1 n2 n3 q) k m : ℝ) : ℂ) ≠ 0 :=
      Complex.ofReal_ne_zero.2 (sub_ne_zero.2 (hne k m n))
    have h0 : weights 0 kT occ delta win e q k m n = (occ (e k n / kT) -
        slice (fun k n => occ (e k n / kT)) (qIndices n1 n2 n3 q) k m) / (e k n - slice e (qIndices n1 n2 n3 q) k m) *
        envelope win e (qIndices n1 n2 n3 q) k m n := by
      unfold weights dfde
      simp only
      rw [if_pos (abs_pos.2 (sub_ne_zero.2 (hne k m n)))]
    rw [h0]
    unfold weightsOmega dfdeOmega
    simp only
    rw [Complex.ofReal_mul, Complex.ofReal_div]
    refine Tendsto.mul_const _ (Tendsto.div tendsto_const_nhds ?_ hd)
    have : Tendsto (fun omega : ℂ => omega + ((e k n - slice e (qIndices n1 n2 n3 q) k m : ℝ) : ℂ)) (𝓝 0)
        (𝓝 (0 + ((e k n - slice e (qIndices n1 n2 n3 q) k m : ℝ) : ℂ))) := tendsto_id.add_const _
    rwa [zero_add] at this
  unfold selfEnergy contact
  simp only [Complex.ofReal_zero, zero_div, mul_zero, zero_mul, Finset.sum_const_zero, add_zero]
  refine Tendsto.const_mul _ (tendsto_finsetSum _ fun k _ => tendsto_finsetSum _ fun m _ => tendsto_finsetSum _ fun n _ => ?_)
  unfold piK
  split
  · simpa using tendsto_const_nhds
  · exact (hw k m n).const_mul _

/-- C87: with `Delta_diff`, the derivative of the self-energy with respect to the width of the excluded window is
returned. -/
theorem C87_window (eps kT : ℝ) (occ delta : ℝ → ℝ) (symmetrize diagonal : Bool) (wkT : ℝ) (wocc wdelta : ℝ → ℝ)
    (h : ∀ x, HasDerivAt wocc (-wdelta x) x) (e : Mesh n1 n2 n3 → Fin nb → ℝ) (q : Fin 3 → ℝ)
    (g : X → Mesh n1 n2 n3 → Fin nb → Fin nb → ℂ) (mu nu : X) (D : ℝ) :
    HasDerivAt (fun D : ℝ => selfEnergy symmetrize diagonal (fun k m n =>
        (weights eps kT occ delta (some ⟨D, wkT, false, wocc, wdelta⟩) e q k m n : ℂ)) (fun _ _ => 0) g none mu nu)
      (selfEnergy symmetrize diagonal (fun k m n =>
        (weights eps kT occ delta (some ⟨D, wkT, true, wocc, wdelta⟩) e q k m n : ℂ)) (fun _ _ => 0) g none mu nu) D := by
  have hT : ∀ x : ℝ, HasDerivAt (fun D => Window.Theta ⟨D, wkT, false, wocc, wdelta⟩ x)
      (Window.del ⟨D, wkT, true, wocc, wdelta⟩ x) D := by
    intro x
    unfold Window.Theta Window.del
    simp only
    have h1 : HasDerivAt (fun D : ℝ => (x - D) / wkT) (-1 / wkT) D :=
      (((hasDerivAt_id D).const_sub x).div_const wkT).congr_deriv rfl
    have h2 : HasDerivAt (fun D : ℝ => (-x - D) / wkT) (-1 / wkT) D :=
      (((hasDerivAt_id D).const_sub (-x)).div_const wkT).congr_deriv rfl
    have h3 : HasDerivAt (fun D : ℝ => wocc ((x - D) / wkT)) (-wdelta ((x - D) / wkT) * (-1 / wkT)) D :=
      HasDerivAt.comp (h₂ := wocc) D (h _) h1
    have h4 : HasDerivAt (fun D : ℝ => wocc ((-x - D) / wkT)) (-wdelta ((-x - D) / wkT) * (-1 / wkT)) D :=
      HasDerivAt.comp (h₂ := wocc) D (h _) h2
    refine ((h3.const_sub 2).sub h4).congr_deriv ?_
    rw [div_neg]
    ring
  have hE : ∀ k m n, HasDerivAt (fun D => weights eps kT occ delta (some ⟨D, wkT, false, wocc, wdelta⟩) e q k m n)
      (weights eps kT occ delta (some ⟨D, wkT, true, wocc, wdelta⟩) e q k m n) D := by
    intro k m n
    unfold weights envelope
    simp only [if_true, Bool.false_eq_true, if_false]
    refine HasDerivAt.const_mul _ (((hT _).mul (hT _)).congr_deriv ?_)
    simp only [Window.Theta]
    ring
  unfold selfEnergy contact
  simp only [Complex.ofReal_zero, zero_div, mul_zero, zero_mul, Finset.sum_const_zero, add_zero]
  refine HasDerivAt.const_mul _ (HasDerivAt.fun_sum fun k _ => HasDerivAt.fun_sum fun m _ => HasDerivAt.fun_sum fun n _ => ?_)
  unfold piK
  split
  · simpa using hasDerivAt_const D (0 : ℂ)
  · exact (hE k m n).ofReal_comp.const_mul _

/-- C52: with `symmetrize`, the result is the mean of the results for dressed right and dressed left vertices. -/
theorem C52_symmetrize (diagonal : Bool) (w : Mesh n1 n2 n3 → Fin nb → Fin nb → ℂ) (g G : Cpl n1 n2 n3 nb X) (mu nu : X) :
    selfEnergy true diagonal w (fun _ _ => 0) g (some G) mu nu =
      (selfEnergy false diagonal w (fun _ _ => 0) g (some G) mu nu +
        selfEnergy false diagonal w (fun _ _ => 0) G (some g) mu nu) / 2 := by
  unfold selfEnergy contact
  simp only [Complex.ofReal_zero, zero_div, mul_zero, zero_mul, Finset.sum_const_zero, add_zero]
  rw [← mul_add, mul_div_assoc, ← Finset.sum_add_distrib]
  simp only [← Finset.sum_add_distrib, Finset.sum_div]
  congr 1
  refine Finset.sum_congr rfl fun k _ => Finset.sum_congr rfl fun m _ => Finset.sum_congr rfl fun n _ => ?_
  unfold piK
  split
  · ring
  · simp only [if_true, Bool.false_eq_true, if_false]
    ring

/-- C52: equal vertices on both sides need not be given twice. -/
theorem C52_same (symmetrize diagonal : Bool) (w : Mesh n1 n2 n3 → Fin nb → Fin nb → ℂ) (U : Fin nb → Fin nb → ℝ)
    (g : Cpl n1 n2 n3 nb X) (mu nu : X) :
    selfEnergy symmetrize diagonal w U g (some g) mu nu = selfEnergy symmetrize diagonal w U g none mu nu := by
  unfold selfEnergy
  congr 2
  refine Finset.sum_congr rfl fun k _ => Finset.sum_congr rfl fun m _ => Finset.sum_congr rfl fun n _ => ?_
  unfold piK
  split
  · rfl
  · simp only
    split
    · ring
    · rfl

end

/-- Two levels, one above the other at all points of the mesh. -/
theorem separated : ∀ (k : Mesh 4 4 1) (m n : Fin 1), (fun (k : Mesh 4 4 1) (_ : Fin 1) => ((k.1 : ℕ) : ℝ)) k n ≠
    slice (fun (k : Mesh 4 4 1) (_ : Fin 1) => ((k.1 : ℕ) : ℝ)) (qIndices 4 4 1 fun i => if i = 0 then Real.pi else 0) k m := by
  intro k m n
  have hq : OnMesh (fun i => if i = 0 then Real.pi else 0) ((2, 0, 0) : Mesh 4 4 1) :=
    ⟨fun _ => 0, by norm_num; ring, by simp, by simp⟩
  rw [slice_q _ _ _ _ hq]
  simp only [ne_eq, Nat.cast_inj]
  revert k
  decide

example (g : Cpl 4 4 1 1 (Fin 3)) := C87_static 0.025 gauss gaussDelta none true false (fun (k : Mesh 4 4 1) (_ : Fin 1) => ((k.1 : ℕ) : ℝ))
  (fun i => if i = 0 then Real.pi else 0) g separated 0 1

example (e : Mesh 4 4 1 → Fin 2 → ℝ) (q : Fin 3 → ℝ) (g : Cpl 4 4 1 2 (Fin 3)) :=
  C87_window 0 0.025 gauss gaussDelta true false 0.1 gauss gaussDelta (fun x => (C36_gauss x).1) e q g 0 1 0.5

end Verif.Diag
