import Verif.Phon.GramSchmidt
import Verif.ElPh.Model

/-!
# Model of `elphmod/ph.py` 538-556: sum of force constants

Exact arithmetic. `Index nR nat` stands for the axes of `data` after `reshape`. The product `np.prod(nq)` is a parameter.
-/

namespace Verif.Phon

open Verif.ElPh (vectorIndex)
open Verif.Lattice (V3)

variable {nR nat : Nat}

/-- `elphmod/ph.py` 182-200 (`Model.C`): force constants for a lattice vector, zeros for a vector not stored. -/
noncomputable def forceC (Rint : Fin nR → V3) (data : Index nR nat → ℝ) (R : V3) : Fin nat × Fin 3 → Fin nat × Fin 3 → ℝ :=
  match vectorIndex Rint R with
  | some n => fun a b => data (n, a, b)
  | none => fun _ _ => 0

/-- One round of the loop in `elphmod/ph.py` 552-554. -/
noncomputable def costStep (M : Fin nat → ℝ) (cost : Fin nat → Fin nat → ℝ) (na : Fin nat) : Fin nat → Fin nat → ℝ :=
  let cost : Fin nat → Fin nat → ℝ := fun a b => if a = na then cost a b * Real.sqrt (M na) else cost a b
  fun a b => if b = na then cost a b * Real.sqrt (M na) else cost a b

/-- `elphmod/ph.py` 538-556 (`Model.sum_force_constants`). -/
noncomputable def sumForceConstants (Rint : Fin nR → V3) (data : Index nR nat → ℝ) (divideMass : Bool) (M : Fin nat → ℝ)
    (prodnq : Nat) : ℝ :=
  let Call : Fin nat → Fin nat → ℝ := fun a b => ∑ n, ∑ x, ∑ y, |data (n, (a, x), (b, y))|
  let Cblock : Fin nat → Fin nat → ℝ := fun a b => ∑ x, ∑ y, |forceC Rint data (0, 0, 0) (a, x) (b, y)|
  let Cself : Fin nat → Fin nat → ℝ := fun a b => if a = b then Cblock a a else 0
  let cost : Fin nat → Fin nat → ℝ := fun a b => Call a b - Cself a b
  let cost := if divideMass then (List.finRange nat).foldl (costStep M) cost else cost
  (∑ a, ∑ b, cost a b) / (2 * prodnq)

/-! ### Specification -/

/-- Sum of the absolute values of the force constants over all ordered pairs of different atoms of the crystal with the
first atom in the home cell. -/
noncomputable def interatomic (Rint : Fin nR → V3) (C : Index nR nat → ℝ) : ℝ :=
  ∑ i : Index nR nat, if Rint i.1 = (0, 0, 0) ∧ i.2.1.1 = i.2.2.1 then 0 else |C i|

/-! ### Proofs -/

theorem foldl_costStep (M : Fin nat → ℝ) (L : List (Fin nat)) (hL : L.Nodup) (cost : Fin nat → Fin nat → ℝ) (a b : Fin nat) :
    L.foldl (costStep M) cost a b = cost a b * (if a ∈ L then Real.sqrt (M a) else 1) *
      (if b ∈ L then Real.sqrt (M b) else 1) := by
  induction L generalizing cost with
  | nil => simp
  | cons c L ih =>
    rw [List.foldl_cons, ih (List.nodup_cons.1 hL).2]
    have hc := (List.nodup_cons.1 hL).1
    unfold costStep
    by_cases ha : a = c <;> by_cases hb : b = c
    · subst ha; subst hb; simp [hc]
    · subst ha; simp [hc, hb]
    · subst hb; simp only [hc, ha, List.mem_cons, false_or, true_or, if_true, if_false]; ring
    · simp [ha, hb]

theorem foldl_costStep_all (M : Fin nat → ℝ) (cost : Fin nat → Fin nat → ℝ) (a b : Fin nat) :
    (List.finRange nat).foldl (costStep M) cost a b = cost a b * (Real.sqrt (M a) * Real.sqrt (M b)) := by
  rw [foldl_costStep M _ (List.nodup_finRange nat)]
  simp [mul_assoc]

/-- The self terms subtracted are those of the interatomic sum. -/
theorem block_self (Rint : Fin nR → V3) (hR : Function.Injective Rint) (data : Index nR nat → ℝ) (a b : Fin nat × Fin 3) :
    |forceC Rint data (0, 0, 0) a b| = ∑ n, if Rint n = (0, 0, 0) then |data (n, a, b)| else 0 := by
  unfold forceC vectorIndex
  cases h : (List.finRange nR).find? fun i => Rint i = (0, 0, 0) with
  | none =>
    have h1 : ∀ n, Rint n ≠ (0, 0, 0) := by
      intro n
      have := List.find?_eq_none.1 h n (List.mem_finRange n)
      simpa using this
    simp [h1]
  | some m =>
    have hm : Rint m = (0, 0, 0) := by simpa using List.find?_some h
    rw [Finset.sum_eq_single m]
    · simp [hm]
    · intro n _ hn
      rw [if_neg]
      intro h0
      exact hn (hR (h0.trans hm.symm))
    · simp

/-- C96: `sum_force_constants` adds up the absolute values of the force constants between all pairs of different atoms; what
an atom exerts on itself is left out, its periodic images are not. The masses cancel. -/
theorem C96_sum (Rint : Fin nR → V3) (hR : Function.Injective Rint) (data : Index nR nat → ℝ) (divideMass : Bool)
    (M : Fin nat → ℝ) (prodnq : Nat) :
    sumForceConstants Rint data divideMass M prodnq =
      interatomic Rint (forceConstants divideMass M data) / (2 * prodnq) := by
  have h1 : ∀ a b : Fin nat, (∑ n, ∑ x, ∑ y, |data (n, (a, x), (b, y))|) -
      (if a = b then ∑ x, ∑ y, |forceC Rint data (0, 0, 0) (a, x) (a, y)| else 0) =
      ∑ n, ∑ x, ∑ y, if Rint n = (0, 0, 0) ∧ a = b then 0 else |data (n, (a, x), (b, y))| := by
    intro a b
    by_cases hab : a = b
    · subst hab
      simp only [if_true, and_true, block_self Rint hR]
      have hs : (∑ x : Fin 3, ∑ y : Fin 3, ∑ n, if Rint n = (0, 0, 0) then |data (n, (a, x), (a, y))| else 0) =
          ∑ n, ∑ x : Fin 3, ∑ y : Fin 3, if Rint n = (0, 0, 0) then |data (n, (a, x), (a, y))| else 0 := by
        rw [Finset.sum_comm (s := (Finset.univ : Finset (Fin nR)))]
        exact Finset.sum_congr rfl fun x _ => Finset.sum_comm
      rw [hs, ← Finset.sum_sub_distrib]
      refine Finset.sum_congr rfl fun n _ => ?_
      by_cases h0 : Rint n = (0, 0, 0) <;> simp [h0]
    · simp [hab]
  have h2 : ∀ a b : Fin nat, (if divideMass then (List.finRange nat).foldl (costStep M) fun a b : Fin nat =>
        (∑ n, ∑ x, ∑ y, |data (n, (a, x), (b, y))|) -
        (if a = b then ∑ x, ∑ y, |forceC Rint data (0, 0, 0) (a, x) (a, y)| else 0) else fun a b : Fin nat =>
        (∑ n, ∑ x, ∑ y, |data (n, (a, x), (b, y))|) -
        (if a = b then ∑ x, ∑ y, |forceC Rint data (0, 0, 0) (a, x) (a, y)| else 0)) a b =
      ∑ n, ∑ x, ∑ y, if Rint n = (0, 0, 0) ∧ a = b then 0 else |forceConstants divideMass M data (n, (a, x), (b, y))| := by
    intro a b
    cases divideMass
    · simp only [Bool.false_eq_true, if_false, h1, forceConstants]
    · simp only [if_true, foldl_costStep_all, h1, forceConstants, Finset.sum_mul]
      refine Finset.sum_congr rfl fun n _ => Finset.sum_congr rfl fun x _ => Finset.sum_congr rfl fun y _ => ?_
      split
      · simp
      · rw [abs_mul, abs_of_nonneg (mul_nonneg (Real.sqrt_nonneg (M a)) (Real.sqrt_nonneg (M b)))]
  unfold sumForceConstants interatomic
  simp only [h2]
  simp only [Fintype.sum_prod_type]
  refine congrArg (· / (2 * (prodnq : ℝ))) ?_
  calc _ = ∑ a : Fin nat, ∑ n, ∑ b : Fin nat, ∑ x : Fin 3, ∑ y : Fin 3,
        (if Rint n = (0, 0, 0) ∧ a = b then 0 else |forceConstants divideMass M data (n, (a, x), (b, y))|) :=
        Finset.sum_congr rfl fun a _ => Finset.sum_comm
    _ = ∑ n, ∑ a : Fin nat, ∑ b : Fin nat, ∑ x : Fin 3, ∑ y : Fin 3,
        (if Rint n = (0, 0, 0) ∧ a = b then 0 else |forceConstants divideMass M data (n, (a, x), (b, y))|) :=
        Finset.sum_comm
    _ = _ := Finset.sum_congr rfl fun n _ => Finset.sum_congr rfl fun a _ => Finset.sum_comm

/-- C96: the sum does not depend on whether the model stores force constants or mass-normalized force constants. -/
theorem C96_mass (Rint : Fin nR → V3) (hR : Function.Injective Rint) (C : Index nR nat → ℝ) (M : Fin nat → ℝ)
    (hM : ∀ a, 0 < M a) (prodnq : Nat) :
    sumForceConstants Rint (fun i => C i / (Real.sqrt (M i.2.1.1) * Real.sqrt (M i.2.2.1))) true M prodnq =
      sumForceConstants Rint C false M prodnq := by
  rw [C96_sum Rint hR, C96_sum Rint hR]
  congr 2
  funext i
  have h1 := (Real.sqrt_pos.2 (hM i.2.1.1)).ne'
  have h2 := (Real.sqrt_pos.2 (hM i.2.2.1)).ne'
  simp only [forceConstants, if_true, Bool.false_eq_true, if_false]
  field_simp

/-- C96: the sum is not negative, and zero only without any interaction between different atoms. -/
theorem C96_zero (Rint : Fin nR → V3) (hR : Function.Injective Rint) (data : Index nR nat → ℝ) (divideMass : Bool)
    (M : Fin nat → ℝ) (hM : ∀ a, 0 < M a) (prodnq : Nat) (hq : 0 < prodnq) :
    0 ≤ sumForceConstants Rint data divideMass M prodnq ∧
      (sumForceConstants Rint data divideMass M prodnq = 0 ↔
        ∀ n a x b y, ¬(Rint n = (0, 0, 0) ∧ a = b) → data (n, (a, x), (b, y)) = 0) := by
  have hq' : (0 : ℝ) < 2 * prodnq := by positivity
  have hn : ∀ i : Index nR nat, 0 ≤ (if Rint i.1 = (0, 0, 0) ∧ i.2.1.1 = i.2.2.1 then 0 else
      |forceConstants divideMass M data i|) := by
    intro i
    split
    · exact le_rfl
    · exact abs_nonneg _
  rw [C96_sum Rint hR]
  refine ⟨div_nonneg (Finset.sum_nonneg fun i _ => hn i) hq'.le, ?_⟩
  rw [div_eq_zero_iff, or_iff_left hq'.ne']
  unfold interatomic
  rw [Finset.sum_eq_zero_iff_of_nonneg fun i _ => hn i]
  constructor
  · intro h n a x b y hne
    have := h (n, (a, x), (b, y)) (Finset.mem_univ _)
    rw [if_neg hne, abs_eq_zero] at this
    have h1 := (Real.sqrt_pos.2 (hM a)).ne'
    have h2 := (Real.sqrt_pos.2 (hM b)).ne'
    cases divideMass <;> simpa [forceConstants, h1, h2] using this
  · intro h i _
    split
    · rfl
    · rename_i hne
      have := h i.1 i.2.1.1 i.2.1.2 i.2.2.1 i.2.2.2 hne
      rw [abs_eq_zero]
      unfold forceConstants
      split
      · exact mul_eq_zero_of_left this _
      · exact this

/-- A chain of one kind of atom: the interaction with both neighbours counts, the self term does not. -/
example : sumForceConstants (nR := 3) (nat := 1) ![(0, 0, 0), (1, 0, 0), (-1, 0, 0)]
    (fun i => if i.2.1.2 = 0 ∧ i.2.2.2 = 0 then ![10, -5, -5] i.1 else 0) true (fun _ => 4) 5 = 4 := by
  rw [C96_sum]
  · simp only [interatomic, forceConstants, Fintype.sum_prod_type, Fin.sum_univ_three, Fin.sum_univ_one, Fin.isValue,
      Matrix.cons_val_zero, Matrix.cons_val_one, Matrix.cons_val]
    norm_num [Fin.ext_iff]
  · intro a b
    fin_cases a <;> fin_cases b <;> simp

example : Function.Injective (![(0, 0, 0), (1, 0, 0), (-1, 0, 0)] : Fin 3 → V3) := by
  intro a b
  fin_cases a <;> fin_cases b <;> simp

end Verif.Phon
