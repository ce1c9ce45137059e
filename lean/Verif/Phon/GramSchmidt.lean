import Verif.Phon.Model
import Mathlib.Algebra.Order.BigOperators.Ring.Finset
import Mathlib.LinearAlgebra.Span.Basic
import Mathlib.Tactic.LinearCombination
import Mathlib.Tactic.Linarith
import Mathlib.Tactic.FieldSimp
import Mathlib.Tactic.FinCases

/-!
# Sum-rule correction via orthogonalization (C74)
-/

namespace Verif.Phon

open Verif.Voronoi (V3)

section Abstract

variable {ι : Type} [Fintype ι]

theorem dotp_comm (u v : ι → ℝ) : dotp u v = dotp v u := by
  unfold dotp
  exact Finset.sum_congr rfl fun i _ => mul_comm _ _

theorem dotp_sub (u v w : ι → ℝ) : dotp u (v - w) = dotp u v - dotp u w := by
  unfold dotp
  rw [← Finset.sum_sub_distrib]
  exact Finset.sum_congr rfl fun i _ => by simp only [Pi.sub_apply]; ring

theorem dotp_add (u v w : ι → ℝ) : dotp u (v + w) = dotp u v + dotp u w := by
  unfold dotp
  rw [← Finset.sum_add_distrib]
  exact Finset.sum_congr rfl fun i _ => by simp only [Pi.add_apply]; ring

theorem dotp_smul (u v : ι → ℝ) (t : ℝ) : dotp u (t • v) = t * dotp u v := by
  unfold dotp
  rw [Finset.mul_sum]
  exact Finset.sum_congr rfl fun i _ => by simp only [Pi.smul_apply, smul_eq_mul]; ring

theorem dotp_zero (u : ι → ℝ) : dotp u 0 = 0 := by
  unfold dotp
  simp

theorem dotp_self_nonneg (u : ι → ℝ) : 0 ≤ dotp u u :=
  Finset.sum_nonneg fun i _ => mul_self_nonneg _

theorem dotp_self_eq_zero {u : ι → ℝ} (h : dotp u u ≤ 0) : u = 0 := by
  have h0 : dotp u u = 0 := le_antisymm h (dotp_self_nonneg u)
  unfold dotp at h0
  rw [Finset.sum_eq_zero_iff_of_nonneg fun i _ => mul_self_nonneg _] at h0
  funext i
  exact mul_self_eq_zero.1 (h0 i (Finset.mem_univ i))

theorem dotp_cauchy (u v : ι → ℝ) : dotp u v ^ 2 ≤ dotp u u * dotp v v := by
  have h := Finset.sum_mul_sq_le_sq_mul_sq Finset.univ u v
  simpa [dotp, pow_two] using h

/-- Vectors orthogonal to a set are orthogonal to its span. -/
theorem dotp_span {s : Set (ι → ℝ)} {w : ι → ℝ} (h : ∀ u ∈ s, dotp w u = 0) {v : ι → ℝ}
    (hv : v ∈ Submodule.span ℝ s) : dotp w v = 0 := by
  induction hv using Submodule.span_induction with
  | mem x hx => exact h x hx
  | zero => exact dotp_zero w
  | add x y _ _ hx hy => rw [dotp_add, hx, hy, add_zero]
  | smul t x _ hx => rw [dotp_smul, hx, mul_zero]

/-- One projection. -/
theorem step_eq (p : (ι → ℝ) × ℝ) (v : ι → ℝ) :
    (fun i => v i - dotp p.1 v / p.2 * p.1 i) = v - (dotp p.1 v / p.2) • p.1 := by
  funext i
  simp

/-- Elements used for projections. -/
def usedSet (eps : ℝ) (don : List ((ι → ℝ) × ℝ)) : Set (ι → ℝ) := {u | ∃ p ∈ don, p.2 > eps ∧ p.1 = u}

theorem gsInner_dotp (eps : ℝ) (w : ι → ℝ) (don : List ((ι → ℝ) × ℝ))
    (h : ∀ p ∈ don, p.2 > eps → dotp w p.1 = 0) (v : ι → ℝ) : dotp w (gsInner eps don v) = dotp w v := by
  induction don generalizing v with
  | nil => rfl
  | cons p don ih =>
    unfold gsInner at ih ⊢
    rw [List.foldl_cons, ih fun q hq => h q (List.mem_cons_of_mem _ hq)]
    split
    · rename_i hp
      rw [step_eq, dotp_sub, dotp_smul, h p List.mem_cons_self hp, mul_zero, sub_zero]
    · rfl

theorem gsInner_span (eps : ℝ) (don : List ((ι → ℝ) × ℝ)) (v : ι → ℝ) :
    v - gsInner eps don v ∈ Submodule.span ℝ (usedSet eps don) := by
  induction don generalizing v with
  | nil =>
    have : v - gsInner eps [] v = 0 := sub_self v
    rw [this]
    exact Submodule.zero_mem _
  | cons p don ih =>
    have hmono : Submodule.span ℝ (usedSet eps don) ≤ Submodule.span ℝ (usedSet eps (p :: don)) :=
      Submodule.span_mono fun u ⟨q, hq, h1, h2⟩ => ⟨q, List.mem_cons_of_mem _ hq, h1, h2⟩
    have he : gsInner eps (p :: don) v = gsInner eps don (if p.2 > eps then v - (dotp p.1 v / p.2) • p.1 else v) := by
      unfold gsInner
      rw [List.foldl_cons]
      split
      · rw [step_eq]
      · rfl
    rw [he]
    split
    · rename_i hp
      have h := hmono (ih (v - (dotp p.1 v / p.2) • p.1))
      have h2 : (dotp p.1 v / p.2) • p.1 ∈ Submodule.span ℝ (usedSet eps (p :: don)) :=
        Submodule.smul_mem _ _ (Submodule.subset_span ⟨p, List.mem_cons_self, hp, rfl⟩)
      have := Submodule.add_mem _ h h2
      rwa [sub_right_comm, sub_add_cancel] at this
    · exact hmono (ih v)

/-- What holds for the list of orthogonalized vectors. -/
structure Good (eps : ℝ) (don : List ((ι → ℝ) × ℝ)) : Prop where
  square : ∀ p ∈ don, p.2 = dotp p.1 p.1
  orth : don.Pairwise fun p q => p.2 > eps → dotp p.1 q.1 = 0

theorem gsInner_orth {eps : ℝ} (h0 : 0 ≤ eps) {don : List ((ι → ℝ) × ℝ)} (hg : Good eps don) (v : ι → ℝ) :
    ∀ p ∈ don, p.2 > eps → dotp p.1 (gsInner eps don v) = 0 := by
  induction don generalizing v with
  | nil => simp
  | cons q don ih =>
    have hc := List.pairwise_cons.1 hg.orth
    have he : gsInner eps (q :: don) v = gsInner eps don (if q.2 > eps then v - (dotp q.1 v / q.2) • q.1 else v) := by
      unfold gsInner
      rw [List.foldl_cons]
      split
      · rw [step_eq]
      · rfl
    intro p hp hpe
    rw [he]
    rcases List.mem_cons.1 hp with rfl | hp
    · rw [gsInner_dotp eps p.1 don (fun r hr _ => hc.1 r hr hpe), if_pos hpe, dotp_sub, dotp_smul,
        ← hg.square p List.mem_cons_self, div_mul_cancel₀ _ (ne_of_gt (lt_of_le_of_lt h0 hpe)), sub_self]
    · exact ih ⟨fun r hr => hg.square r (List.mem_cons_of_mem _ hr), hc.2⟩ _ p hp hpe

theorem gramSchmidt_append (eps : ℝ) (cs : List (ι → ℝ)) (c : ι → ℝ) :
    gramSchmidt eps (cs ++ [c]) = gramSchmidt eps cs ++ [(gsInner eps (gramSchmidt eps cs) c,
      dotp (gsInner eps (gramSchmidt eps cs) c) (gsInner eps (gramSchmidt eps cs) c))] := by
  unfold gramSchmidt
  rw [List.foldl_append]
  rfl

theorem gramSchmidt_good {eps : ℝ} (h0 : 0 ≤ eps) (cs : List (ι → ℝ)) : Good eps (gramSchmidt eps cs) := by
  induction cs using List.reverseRecOn with
  | nil => exact ⟨by simp [gramSchmidt], by simp [gramSchmidt]⟩
  | append_singleton cs c ih =>
    rw [gramSchmidt_append]
    constructor
    · intro p hp
      rcases List.mem_append.1 hp with hp | hp
      · exact ih.square p hp
      · rw [List.mem_singleton] at hp
        rw [hp]
    · rw [List.pairwise_append]
      refine ⟨ih.orth, List.pairwise_singleton _ _, ?_⟩
      intro p hp q hq hpe
      rw [List.mem_singleton] at hq
      rw [hq]
      exact gsInner_orth h0 ih c p hp hpe

/-- The orthogonalized vectors are combinations of the original ones. -/
theorem gramSchmidt_span (eps : ℝ) (cs : List (ι → ℝ)) :
    ∀ p ∈ gramSchmidt eps cs, p.1 ∈ Submodule.span ℝ {u | u ∈ cs} := by
  induction cs using List.reverseRecOn with
  | nil => simp [gramSchmidt]
  | append_singleton cs c ih =>
    have hmono : Submodule.span ℝ {u | u ∈ cs} ≤ Submodule.span ℝ {u | u ∈ cs ++ [c]} :=
      Submodule.span_mono fun u hu => List.mem_append_left _ hu
    rw [gramSchmidt_append]
    intro p hp
    rcases List.mem_append.1 hp with hp | hp
    · exact hmono (ih p hp)
    · rw [List.mem_singleton] at hp
      rw [hp]
      have h1 : c - gsInner eps (gramSchmidt eps cs) c ∈ Submodule.span ℝ {u | u ∈ cs ++ [c]} := by
        refine Submodule.span_le.2 ?_ (gsInner_span eps (gramSchmidt eps cs) c)
        rintro u ⟨q, hq, _, rfl⟩
        exact hmono (ih q hq)
      have h2 : c ∈ Submodule.span ℝ {u | u ∈ cs ++ [c]} := Submodule.subset_span (by simp)
      have := Submodule.sub_mem _ h2 h1
      rwa [sub_sub_cancel] at this

/-- Each original vector differs from an orthogonalized one by used orthogonalized ones. -/
theorem gramSchmidt_origin (eps : ℝ) (cs : List (ι → ℝ)) :
    ∀ c ∈ cs, ∃ p ∈ gramSchmidt eps cs, c - p.1 ∈ Submodule.span ℝ (usedSet eps (gramSchmidt eps cs)) := by
  induction cs using List.reverseRecOn with
  | nil => simp
  | append_singleton cs d ih =>
    intro c hc
    rw [gramSchmidt_append]
    have hmono : ∀ q, Submodule.span ℝ (usedSet eps (gramSchmidt eps cs)) ≤
        Submodule.span ℝ (usedSet eps (gramSchmidt eps cs ++ [q])) := fun q =>
      Submodule.span_mono fun u ⟨p, hp, h1, h2⟩ => ⟨p, List.mem_append_left _ hp, h1, h2⟩
    rcases List.mem_append.1 hc with hc | hc
    · obtain ⟨p, hp, h⟩ := ih c hc
      exact ⟨p, List.mem_append_left _ hp, hmono _ h⟩
    · rw [List.mem_singleton] at hc
      subst hc
      exact ⟨_, List.mem_append_right _ (List.mem_singleton_self _), hmono _ (gsInner_span eps _ c)⟩

/-- The corrected vector. -/
noncomputable def corrected (eps : ℝ) (cs : List (ι → ℝ)) (C : ι → ℝ) : ι → ℝ :=
  (((gramSchmidt eps (cs ++ [C])).getLast?).map Prod.fst).getD C

theorem corrected_eq (eps : ℝ) (cs : List (ι → ℝ)) (C : ι → ℝ) :
    corrected eps cs C = gsInner eps (gramSchmidt eps cs) C := by
  unfold corrected
  rw [gramSchmidt_append]
  simp

theorem corrected_span (eps : ℝ) (cs : List (ι → ℝ)) (C : ι → ℝ) :
    C - corrected eps cs C ∈ Submodule.span ℝ {u | u ∈ cs} := by
  rw [corrected_eq]
  refine Submodule.span_le.2 ?_ (gsInner_span eps (gramSchmidt eps cs) C)
  rintro u ⟨q, hq, _, rfl⟩
  exact gramSchmidt_span eps cs q hq

theorem corrected_used {eps : ℝ} (h0 : 0 ≤ eps) (cs : List (ι → ℝ)) (C : ι → ℝ) {v : ι → ℝ}
    (hv : v ∈ Submodule.span ℝ (usedSet eps (gramSchmidt eps cs))) : dotp (corrected eps cs C) v = 0 := by
  apply dotp_span _ hv
  rintro u ⟨p, hp, hpe, rfl⟩
  rw [dotp_comm, corrected_eq]
  exact gsInner_orth h0 (gramSchmidt_good h0 cs) C p hp hpe

/-- The correction does not make the vector longer. -/
theorem corrected_norm {eps : ℝ} (h0 : 0 ≤ eps) (cs : List (ι → ℝ)) (C : ι → ℝ) :
    dotp (corrected eps cs C) (corrected eps cs C) ≤ dotp C C := by
  have h : dotp (corrected eps cs C) (C - corrected eps cs C) = 0 :=
    corrected_used h0 cs C (by rw [corrected_eq]; exact gsInner_span eps _ C)
  have h2 := dotp_self_nonneg (C - corrected eps cs C)
  rw [dotp_sub, dotp_comm (C - corrected eps cs C) (corrected eps cs C), h,
    dotp_comm (C - corrected eps cs C) C, dotp_sub] at h2
  rw [dotp_sub, dotp_comm _ C] at h
  linarith

/-- The corrected vector satisfies all constraints up to the threshold. -/
theorem corrected_bound {eps : ℝ} (h0 : 0 ≤ eps) (cs : List (ι → ℝ)) (C : ι → ℝ) :
    ∀ c ∈ cs, dotp c (corrected eps cs C) ^ 2 ≤ eps * dotp C C := by
  intro c hc
  obtain ⟨p, hp, h⟩ := gramSchmidt_origin eps cs c hc
  have h1 := corrected_used h0 cs C h
  rw [dotp_sub] at h1
  have hg := gramSchmidt_good h0 cs
  have h2 : dotp p.1 (corrected eps cs C) ^ 2 ≤ eps * dotp C C := by
    by_cases hpe : p.2 > eps
    · rw [dotp_comm, corrected_used h0 cs C (Submodule.subset_span ⟨p, hp, hpe, rfl⟩)]
      have := mul_nonneg h0 (dotp_self_nonneg C)
      simpa using this
    · refine (dotp_cauchy _ _).trans ?_
      rw [← hg.square p hp]
      exact mul_le_mul (not_lt.1 hpe) (corrected_norm h0 cs C) (dotp_self_nonneg _) h0
  rw [dotp_comm] at h2
  rw [dotp_comm]
  rwa [sub_eq_zero.1 h1]

/-- No vector that satisfies the constraints is closer to the original vector. -/
theorem corrected_nearest {eps : ℝ} (cs : List (ι → ℝ)) (h0 : 0 ≤ eps) (C X : ι → ℝ) (hX : ∀ c ∈ cs, dotp c X = 0) :
    dotp (corrected eps cs C - C) (corrected eps cs C - C) ≤ dotp (X - C) (X - C) := by
  have h1 : dotp (corrected eps cs C) (C - corrected eps cs C) = 0 :=
    corrected_used h0 cs C (by rw [corrected_eq]; exact gsInner_span eps _ C)
  have h2 : dotp X (C - corrected eps cs C) = 0 :=
    dotp_span (fun u hu => by rw [dotp_comm]; exact hX u hu) (corrected_span eps cs C)
  generalize corrected eps cs C = C' at *
  have e : X - C = (X - C') + (C' - C) := by abel
  have h3 : dotp (X - C') (C' - C) = 0 := by
    rw [dotp_sub] at h1 h2 ⊢
    rw [dotp_comm (X - C') C', dotp_comm (X - C') C, dotp_sub, dotp_sub, dotp_comm C' X, dotp_comm C X,
      dotp_comm C C']
    linarith
  rw [e, dotp_add, dotp_comm (X - C' + (C' - C)), dotp_comm (X - C' + (C' - C)), dotp_add, dotp_add,
    dotp_comm (C' - C) (X - C'), h3]
  have := dotp_self_nonneg (X - C')
  linarith

end Abstract

section Concrete

variable {nR nat : Nat}

/-- The list of lattice vectors contains no vector twice and with each vector its negative. -/
structure Symmetric (Rint : Fin nR → V3) : Prop where
  distinct : Function.Injective Rint
  closed : ∀ n, ∃ m, Rint m = (-(Rint n).1, -(Rint n).2.1, -(Rint n).2.2)

theorem minusR_spec {Rint : Fin nR → V3} (h : Symmetric Rint) (n : Fin nR) :
    Rint (minusR Rint n) = (-(Rint n).1, -(Rint n).2.1, -(Rint n).2.2) := by
  unfold minusR
  obtain ⟨m, hm⟩ := h.closed n
  cases hf : (List.finRange nR).find? fun m => decide (Rint m = (-(Rint n).1, -(Rint n).2.1, -(Rint n).2.2)) with
  | none =>
    rw [List.find?_eq_none] at hf
    exact absurd hm (by simpa using hf m (List.mem_finRange m))
  | some k =>
    have := List.find?_some hf
    simpa using this

theorem minusR_minusR {Rint : Fin nR → V3} (h : Symmetric Rint) (n : Fin nR) :
    minusR Rint (minusR Rint n) = n := by
  apply h.distinct
  rw [minusR_spec h, minusR_spec h]
  simp

/-- Exchange of the two atoms. -/
def swap (Rint : Fin nR → V3) (i : Index nR nat) : Index nR nat := (minusR Rint i.1, i.2.2, i.2.1)

theorem swap_swap {Rint : Fin nR → V3} (h : Symmetric Rint) (i : Index nR nat) : swap Rint (swap Rint i) = i := by
  unfold swap
  rw [minusR_minusR h]

theorem dotp_swap {Rint : Fin nR → V3} (h : Symmetric Rint) (u v : Index nR nat → ℝ) :
    dotp (fun i => u (swap Rint i)) v = dotp u fun i => v (swap Rint i) := by
  unfold dotp
  refine Finset.sum_bij' (fun i _ => swap Rint i) (fun i _ => swap Rint i) ?_ ?_ ?_ ?_ ?_
  · simp
  · simp
  · intro i _; exact swap_swap h i
  · intro i _; exact swap_swap h i
  · intro i _
    beta_reduce
    rw [swap_swap h]

/-- Force constants, i.e., second derivatives of the energy: masses multiplied again. -/
noncomputable def forceConstants (divideMass : Bool) (M : Fin nat → ℝ) (data : Index nR nat → ℝ) : Index nR nat → ℝ :=
  fun i => if divideMass then data i * (Real.sqrt (M i.2.1.1) * Real.sqrt (M i.2.2.1)) else data i

/-- The force between two atoms does not depend on their order: `C[R, i, j] = C[-R, j, i]`. -/
def Reciprocal (Rint : Fin nR → V3) (C : Index nR nat → ℝ) : Prop :=
  ∀ n m, Rint m = (-(Rint n).1, -(Rint n).2.1, -(Rint n).2.2) → ∀ i j, C (n, i, j) = C (m, j, i)

theorem reciprocal_iff {Rint : Fin nR → V3} (h : Symmetric Rint) (C : Index nR nat → ℝ) :
    Reciprocal Rint C ↔ ∀ i, C (swap Rint i) = C i := by
  constructor
  · intro hC i
    exact (hC i.1 _ (minusR_spec h i.1) i.2.1 i.2.2).symm
  · intro hC n m hm i j
    have : m = minusR Rint n := h.distinct (hm.trans (minusR_spec h n).symm)
    rw [this]
    exact (hC (n, i, j)).symm

theorem forceConstants_correction (asr rsr : Bool) (eps : ℝ) (Rint : Fin nR → V3) (R : Fin nR → Fin 3 → ℝ)
    (r : Fin nat → Fin 3 → ℝ) (divideMass : Bool) (M : Fin nat → ℝ) (hM : ∀ a, 0 < M a) (data : Index nR nat → ℝ) :
    forceConstants divideMass M (sumRuleCorrection asr rsr eps Rint R r divideMass M data) =
      corrected eps ((constraints asr rsr R r).map (symmetrizeConstraint (minusR Rint)))
        (forceConstants divideMass M data) := by
  have h0 : ∀ a, Real.sqrt (M a) ≠ 0 := fun a => (Real.sqrt_pos.2 (hM a)).ne'
  have e : (fun i : Index nR nat =>
      if divideMass then data i * Real.sqrt (M i.2.1.1) * Real.sqrt (M i.2.2.1) else data i) =
      forceConstants divideMass M data := by
    funext i
    unfold forceConstants
    rw [mul_assoc]
  unfold sumRuleCorrection
  simp only [e]
  change forceConstants divideMass M (fun i => if divideMass then
      corrected eps ((constraints asr rsr R r).map (symmetrizeConstraint (minusR Rint)))
        (forceConstants divideMass M data) i / Real.sqrt (M i.2.1.1) / Real.sqrt (M i.2.2.1)
    else corrected eps ((constraints asr rsr R r).map (symmetrizeConstraint (minusR Rint)))
        (forceConstants divideMass M data) i) = _
  generalize corrected eps ((constraints asr rsr R r).map (symmetrizeConstraint (minusR Rint)))
        (forceConstants divideMass M data) = C
  funext i
  cases divideMass
  · simp [forceConstants]
  · simp only [forceConstants, if_true]
    have h1 := h0 i.2.1.1
    have h2 := h0 i.2.2.1
    field_simp

/-- Symmetrized constraints do not change when the atoms are exchanged. -/
theorem symm_constraint {Rint : Fin nR → V3} (h : Symmetric Rint) (c : Index nR nat → ℝ) (i : Index nR nat) :
    symmetrizeConstraint (minusR Rint) c (swap Rint i) = symmetrizeConstraint (minusR Rint) c i := by
  change c (swap Rint i) + c (swap Rint (swap Rint i)) = c i + c (swap Rint i)
  rw [swap_swap h, add_comm]

/-- C74: the corrected force constants still do not depend on the order of the atoms. -/
theorem C74_reciprocal (asr rsr : Bool) (eps : ℝ) (Rint : Fin nR → V3) (h : Symmetric Rint)
    (R : Fin nR → Fin 3 → ℝ) (r : Fin nat → Fin 3 → ℝ) (divideMass : Bool) (M : Fin nat → ℝ) (hM : ∀ a, 0 < M a)
    (data : Index nR nat → ℝ) (hC : Reciprocal Rint (forceConstants divideMass M data)) :
    Reciprocal Rint (forceConstants divideMass M (sumRuleCorrection asr rsr eps Rint R r divideMass M data)) := by
  rw [forceConstants_correction asr rsr eps Rint R r divideMass M hM]
  rw [reciprocal_iff h] at hC ⊢
  generalize forceConstants divideMass M data = C at *
  have hs := corrected_span eps ((constraints asr rsr R r).map (symmetrizeConstraint (minusR Rint))) C
  generalize corrected eps ((constraints asr rsr R r).map (symmetrizeConstraint (minusR Rint))) C = C' at *
  have hd : ∀ v ∈ Submodule.span ℝ {u | u ∈ (constraints asr rsr R r).map (symmetrizeConstraint (minusR Rint))},
      ∀ i, v (swap Rint i) = v i := by
    intro v hv
    induction hv using Submodule.span_induction with
    | mem x hx =>
      obtain ⟨c, _, rfl⟩ := List.mem_map.1 hx
      exact symm_constraint h c
    | zero => simp
    | add x y _ _ hx hy => intro i; simp [hx i, hy i]
    | smul t x _ hx => intro i; simp [hx i]
  intro i
  have := hd _ hs i
  simp only [Pi.sub_apply, hC i] at this
  linarith

/-- Bound for the deviation from a sum rule. -/
theorem constraint_bound (asr rsr : Bool) {eps : ℝ} (heps : 0 ≤ eps) (Rint : Fin nR → V3) (h : Symmetric Rint)
    (R : Fin nR → Fin 3 → ℝ) (r : Fin nat → Fin 3 → ℝ) (divideMass : Bool) (M : Fin nat → ℝ) (hM : ∀ a, 0 < M a)
    (data : Index nR nat → ℝ) (hC : Reciprocal Rint (forceConstants divideMass M data)) (c : Index nR nat → ℝ)
    (hc : c ∈ constraints asr rsr R r) :
    dotp c (forceConstants divideMass M (sumRuleCorrection asr rsr eps Rint R r divideMass M data)) ^ 2 ≤
      eps / 4 * ∑ i, forceConstants divideMass M data i ^ 2 := by
  have hr := C74_reciprocal asr rsr eps Rint h R r divideMass M hM data hC
  rw [forceConstants_correction asr rsr eps Rint R r divideMass M hM] at hr ⊢
  have hb := corrected_bound heps ((constraints asr rsr R r).map (symmetrizeConstraint (minusR Rint)))
    (forceConstants divideMass M data) _ (List.mem_map.2 ⟨c, hc, rfl⟩)
  have e2 : dotp (forceConstants divideMass M data) (forceConstants divideMass M data) =
      ∑ i, forceConstants divideMass M data i ^ 2 := by
    unfold dotp
    exact Finset.sum_congr rfl fun i _ => (pow_two _).symm
  rw [e2] at hb
  generalize corrected eps ((constraints asr rsr R r).map (symmetrizeConstraint (minusR Rint)))
    (forceConstants divideMass M data) = C' at *
  rw [reciprocal_iff h] at hr
  have e : dotp (symmetrizeConstraint (minusR Rint) c) C' = 2 * dotp c C' := by
    have : symmetrizeConstraint (minusR Rint) c = c + fun i => c (swap Rint i) := rfl
    rw [this, dotp_comm, dotp_add, dotp_comm C' c, dotp_comm C', dotp_swap h]
    simp only [hr]
    ring
  rw [e] at hb
  linarith [mul_pow 2 (dotp c C') 2]

theorem dotp_asrConstraint (k : Fin nat) (x y : Fin 3) (C' : Index nR nat → ℝ) :
    dotp (asrConstraint k x y) C' = ∑ n, ∑ l, C' (n, (k, x), (l, y)) := by
  unfold dotp asrConstraint
  rw [Fintype.sum_prod_type]
  apply Finset.sum_congr rfl
  intro n _
  rw [Fintype.sum_prod_type, Finset.sum_eq_single (k, x)]
  · rw [Fintype.sum_prod_type]
    apply Finset.sum_congr rfl
    intro l _
    rw [Finset.sum_eq_single y]
    · simp
    · intro z _ hz
      simp [hz]
    · simp
  · intro i _ hi
    simp [hi]
  · simp

theorem dotp_rsrConstraint (R : Fin nR → Fin 3 → ℝ) (r : Fin nat → Fin 3 → ℝ) (k : Fin nat) (x1 x2 y : Fin 3)
    (C' : Index nR nat → ℝ) :
    dotp (rsrConstraint R r k x1 x2 y) C' = ∑ n, ∑ l, (C' (n, (k, x1), (l, y)) * (R n x2 + r l x2) -
      C' (n, (k, x2), (l, y)) * (R n x1 + r l x1)) := by
  have e1 : ∀ (x z : Fin 3) , ∑ i : Index nR nat,
      (if i.2.1 = (k, x) ∧ i.2.2.2 = y then R i.1 z + r i.2.2.1 z else 0) * C' i =
      ∑ n, ∑ l, C' (n, (k, x), (l, y)) * (R n z + r l z) := by
    intro x z
    rw [Fintype.sum_prod_type]
    apply Finset.sum_congr rfl
    intro n _
    rw [Fintype.sum_prod_type, Finset.sum_eq_single (k, x)]
    · rw [Fintype.sum_prod_type]
      apply Finset.sum_congr rfl
      intro l _
      rw [Finset.sum_eq_single y]
      · simp [mul_comm]
      · intro z _ hz
        simp [hz]
      · simp
    · intro i _ hi
      simp [hi]
    · simp
  unfold dotp rsrConstraint
  simp only [sub_mul, Finset.sum_sub_distrib]
  rw [e1 x1 x2, e1 x2 x1]

/-- C74: after the correction, a uniform displacement of the crystal leads to no force, up to the threshold below which
constraints are considered as redundant. -/
theorem C74_acoustic (rsr : Bool) {eps : ℝ} (heps : 0 ≤ eps) (Rint : Fin nR → V3) (h : Symmetric Rint)
    (R : Fin nR → Fin 3 → ℝ) (r : Fin nat → Fin 3 → ℝ) (divideMass : Bool) (M : Fin nat → ℝ) (hM : ∀ a, 0 < M a)
    (data : Index nR nat → ℝ) (hC : Reciprocal Rint (forceConstants divideMass M data)) (k : Fin nat) (x y : Fin 3) :
    (∑ n, ∑ l, forceConstants divideMass M (sumRuleCorrection true rsr eps Rint R r divideMass M data)
      (n, (k, x), (l, y))) ^ 2 ≤ eps / 4 * ∑ i, forceConstants divideMass M data i ^ 2 := by
  have hb := constraint_bound true rsr heps Rint h R r divideMass M hM data hC (asrConstraint k x y) (by
    unfold constraints
    apply List.mem_append_left
    rw [if_pos rfl, List.mem_flatMap]
    refine ⟨k, List.mem_finRange k, ?_⟩
    rw [List.mem_flatMap]
    refine ⟨x, List.mem_finRange x, ?_⟩
    rw [List.mem_map]
    exact ⟨y, List.mem_finRange y, rfl⟩)
  generalize forceConstants divideMass M (sumRuleCorrection true rsr eps Rint R r divideMass M data) = C' at *
  rwa [dotp_asrConstraint] at hb

/-- C74: after the correction, the sum that the code calls the rotation sum vanishes, up to the threshold. It exchanges
the direction of the first atom and the position of the second one; see C183 for its relation to forces. -/
theorem C74_rotation (asr : Bool) {eps : ℝ} (heps : 0 ≤ eps) (Rint : Fin nR → V3) (h : Symmetric Rint)
    (R : Fin nR → Fin 3 → ℝ) (r : Fin nat → Fin 3 → ℝ) (divideMass : Bool) (M : Fin nat → ℝ) (hM : ∀ a, 0 < M a)
    (data : Index nR nat → ℝ) (hC : Reciprocal Rint (forceConstants divideMass M data)) (k : Fin nat)
    (x1 x2 y : Fin 3) :
    (∑ n, ∑ l,
      (forceConstants divideMass M (sumRuleCorrection asr true eps Rint R r divideMass M data) (n, (k, x1), (l, y)) *
        (R n x2 + r l x2) -
      forceConstants divideMass M (sumRuleCorrection asr true eps Rint R r divideMass M data) (n, (k, x2), (l, y)) *
        (R n x1 + r l x1))) ^ 2 ≤ eps / 4 * ∑ i, forceConstants divideMass M data i ^ 2 := by
  have hb := constraint_bound asr true heps Rint h R r divideMass M hM data hC (rsrConstraint R r k x1 x2 y) (by
    unfold constraints
    apply List.mem_append_right
    rw [if_pos rfl, List.mem_flatMap]
    refine ⟨k, List.mem_finRange k, ?_⟩
    rw [List.mem_flatMap]
    refine ⟨x1, List.mem_finRange x1, ?_⟩
    rw [List.mem_flatMap]
    refine ⟨x2, List.mem_finRange x2, ?_⟩
    rw [List.mem_map]
    exact ⟨y, List.mem_finRange y, rfl⟩)
  generalize forceConstants divideMass M (sumRuleCorrection asr true eps Rint R r divideMass M data) = C' at *
  rwa [dotp_rsrConstraint] at hb

/-- C74: no reciprocal force constants that satisfy the sum rules requested are closer to the original ones. -/
theorem C74_nearest (asr rsr : Bool) {eps : ℝ} (heps : 0 ≤ eps) (Rint : Fin nR → V3) (h : Symmetric Rint)
    (R : Fin nR → Fin 3 → ℝ) (r : Fin nat → Fin 3 → ℝ) (divideMass : Bool) (M : Fin nat → ℝ) (hM : ∀ a, 0 < M a)
    (data : Index nR nat → ℝ) (X : Index nR nat → ℝ) (hX : Reciprocal Rint X)
    (hasr : asr = true → ∀ k x y, ∑ n, ∑ l, X (n, (k, x), (l, y)) = 0)
    (hrsr : rsr = true → ∀ k x1 x2 y, ∑ n, ∑ l, (X (n, (k, x1), (l, y)) * (R n x2 + r l x2) -
      X (n, (k, x2), (l, y)) * (R n x1 + r l x1)) = 0) :
    ∑ i, (forceConstants divideMass M (sumRuleCorrection asr rsr eps Rint R r divideMass M data) i -
        forceConstants divideMass M data i) ^ 2 ≤ ∑ i, (X i - forceConstants divideMass M data i) ^ 2 := by
  rw [forceConstants_correction asr rsr eps Rint R r divideMass M hM]
  generalize forceConstants divideMass M data = C at *
  rw [reciprocal_iff h] at hX
  have hall : ∀ c ∈ (constraints asr rsr R r).map (symmetrizeConstraint (minusR Rint)), dotp c X = 0 := by
    intro c' hc'
    obtain ⟨c, hc, rfl⟩ := List.mem_map.1 hc'
    have : symmetrizeConstraint (minusR Rint) c = c + fun i => c (swap Rint i) := rfl
    rw [this, dotp_comm, dotp_add, dotp_comm X c, dotp_comm X, dotp_swap h]
    simp only [hX]
    have h0 : dotp c X = 0 := by
      unfold constraints at hc
      rcases List.mem_append.1 hc with hc | hc
      · split at hc
        · rename_i ha
          simp only [List.mem_flatMap, List.mem_map] at hc
          obtain ⟨k, _, x, _, y, _, rfl⟩ := hc
          rw [dotp_asrConstraint]
          exact hasr ha k x y
        · simp at hc
      · split at hc
        · rename_i ha
          simp only [List.mem_flatMap, List.mem_map] at hc
          obtain ⟨k, _, x1, _, x2, _, y, _, rfl⟩ := hc
          rw [dotp_rsrConstraint]
          exact hrsr ha k x1 x2 y
        · simp at hc
    rw [h0, add_zero]
  have hn := corrected_nearest _ heps C X hall
  simpa [dotp, pow_two] using hn

/-- C74: force constants that satisfy the sum rules requested are not changed. -/
theorem C74_unchanged (asr rsr : Bool) {eps : ℝ} (heps : 0 ≤ eps) (Rint : Fin nR → V3) (h : Symmetric Rint)
    (R : Fin nR → Fin 3 → ℝ) (r : Fin nat → Fin 3 → ℝ) (divideMass : Bool) (M : Fin nat → ℝ) (hM : ∀ a, 0 < M a)
    (data : Index nR nat → ℝ) (hC : Reciprocal Rint (forceConstants divideMass M data))
    (hasr : asr = true → ∀ k x y, ∑ n, ∑ l, forceConstants divideMass M data (n, (k, x), (l, y)) = 0)
    (hrsr : rsr = true → ∀ k x1 x2 y, ∑ n, ∑ l,
      (forceConstants divideMass M data (n, (k, x1), (l, y)) * (R n x2 + r l x2) -
        forceConstants divideMass M data (n, (k, x2), (l, y)) * (R n x1 + r l x1)) = 0) :
    sumRuleCorrection asr rsr eps Rint R r divideMass M data = data := by
  have hn := C74_nearest asr rsr heps Rint h R r divideMass M hM data _ hC hasr hrsr
  simp only [sub_self, ne_eq, OfNat.ofNat_ne_zero, not_false_eq_true, zero_pow, Finset.sum_const_zero] at hn
  have h0 := (Finset.sum_eq_zero_iff_of_nonneg fun i _ => sq_nonneg _).1
    (le_antisymm hn (Finset.sum_nonneg fun i _ => sq_nonneg _))
  funext i
  have hi := sub_eq_zero.1 ((pow_eq_zero_iff two_ne_zero).1 (h0 i (Finset.mem_univ i)))
  unfold forceConstants at hi
  cases divideMass
  · simpa using hi
  · simp only [if_true] at hi
    exact mul_right_cancel₀ (mul_ne_zero (Real.sqrt_pos.2 (hM _)).ne' (Real.sqrt_pos.2 (hM _)).ne') hi

/-- A linear chain whose force constants violate the acoustic sum rule. -/
def chainR : Fin 3 → V3 := ![(0, 0, 0), (1, 0, 0), (-1, 0, 0)]

theorem chainR_symmetric : Symmetric chainR := by
  constructor
  · decide
  · decide

def chainC (i : Index 3 1) : ℝ := if i.2.1.2 = 0 ∧ i.2.2.2 = 0 then ![3, -1, -1] i.1 else 0

theorem chainC_reciprocal : Reciprocal chainR (forceConstants false (fun _ => 1) chainC) := by
  intro n m hm i j
  have e : ∀ n m, chainR m = (-(chainR n).1, -(chainR n).2.1, -(chainR n).2.2) →
      (n = 0 ∧ m = 0) ∨ (n = 1 ∧ m = 2) ∨ (n = 2 ∧ m = 1) := by decide
  rcases e n m hm with ⟨rfl, rfl⟩ | ⟨rfl, rfl⟩ | ⟨rfl, rfl⟩ <;>
    simp [forceConstants, chainC, and_comm]

example : (∑ n, ∑ l, forceConstants false (fun _ => 1) (sumRuleCorrection true false 0 chainR
    (fun n => ![(chainR n).1, 0, 0]) (fun _ _ => 0) false (fun _ => 1) chainC) (n, (0, 0), (l, 0))) = 0 := by
  have h := C74_acoustic false le_rfl chainR chainR_symmetric (fun n => ![(chainR n).1, 0, 0]) (fun _ _ => 0) false
    (fun _ => 1) (fun _ => one_pos) chainC chainC_reciprocal 0 0 0
  rw [zero_div, zero_mul] at h
  exact pow_eq_zero_iff (two_ne_zero) |>.1 (le_antisymm h (sq_nonneg _))

example : ∑ n, ∑ l, forceConstants false (fun _ => 1) chainC (n, (0, 0), (l, 0)) = 1 := by
  simp [forceConstants, chainC, Fin.sum_univ_three]
  norm_num

end Concrete

end Verif.Phon
