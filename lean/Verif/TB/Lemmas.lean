import Verif.TB.Model
import Mathlib.Algebra.BigOperators.Group.List.Basic
import Mathlib.Data.List.Nodup
import Mathlib.Tactic.Ring

/-! # Dictionaries of blocks -/

namespace Verif.TB

open Verif.Lattice (V3 Supercell toSupercell vadd vsub comb smul cross)
open Verif.Fourier (phase bloch)

variable {α K : Type}

/-- Weighted sum over the blocks of a model. -/
def wsum (g : V3 → (α → α → K) → ℂ) (d : Blocks α K) : ℂ := (d.map fun e => g e.1 e.2).sum

theorem wsum_nil (g : V3 → (α → α → K) → ℂ) : wsum g [] = 0 := rfl

theorem wsum_cons (g : V3 → (α → α → K) → ℂ) (e : V3 × (α → α → K)) (d : Blocks α K) :
    wsum g (e :: d) = g e.1 e.2 + wsum g d := by
  simp [wsum]

theorem wsum_append (g : V3 → (α → α → K) → ℂ) (d d' : Blocks α K) : wsum g (d ++ d') = wsum g d + wsum g d' := by
  simp [wsum]

/-- Changing the block at one key. -/
def modify (d : Blocks α K) (R : V3) (f : (α → α → K) → α → α → K) : Blocks α K :=
  d.map fun e => if e.1 = R then (e.1, f e.2) else e

theorem modify_keys (d : Blocks α K) (R : V3) (f : (α → α → K) → α → α → K) :
    (modify d R f).map Prod.fst = d.map Prod.fst := by
  unfold modify
  rw [List.map_map]
  apply List.map_congr_left
  intro e _
  simp only [Function.comp]
  split <;> rfl

theorem modify_of_notMem (d : Blocks α K) (R : V3) (f : (α → α → K) → α → α → K)
    (h : R ∉ d.map Prod.fst) : modify d R f = d := by
  unfold modify
  conv_rhs => rw [← List.map_id d]
  apply List.map_congr_left
  intro e he
  rw [if_neg]
  · rfl
  · intro h'
    exact h (h' ▸ List.mem_map_of_mem he)

theorem get_cons [Zero K] (e : V3 × (α → α → K)) (d : Blocks α K) (R : V3) :
    get (e :: d) R = if e.1 = R then e.2 else get d R := by
  unfold get
  by_cases h : e.1 = R
  · simp [List.find?_cons, h]
  · simp [List.find?_cons, h]

theorem get_nil [Zero K] (R : V3) : get ([] : Blocks α K) R = fun _ _ => 0 := rfl

theorem get_of_notMem [Zero K] (d : Blocks α K) (R : V3) (h : R ∉ d.map Prod.fst) : get d R = fun _ _ => 0 := by
  induction d with
  | nil => rfl
  | cons e d ih =>
    rw [List.map_cons, List.mem_cons, not_or] at h
    rw [get_cons, if_neg (Ne.symm h.1), ih h.2]

theorem get_modify [Zero K] (d : Blocks α K) (R S : V3) (f : (α → α → K) → α → α → K) :
    get (modify d R f) S = if S = R ∧ S ∈ d.map Prod.fst then f (get d S) else get d S := by
  induction d with
  | nil => simp [modify, get_nil]
  | cons e d ih =>
    have hm : modify (e :: d) R f = (if e.1 = R then (e.1, f e.2) else e) :: modify d R f := rfl
    rw [hm, get_cons, get_cons, ih]
    by_cases h1 : e.1 = R
    · rw [if_pos h1]
      by_cases h2 : e.1 = S
      · have : S = R := h2.symm.trans h1
        simp [h2, this]
      · have : ¬ S = R := fun h => h2 (h1.trans h.symm)
        simp [h2, this]
    · rw [if_neg h1]
      by_cases h2 : e.1 = S
      · have : ¬ S = R := fun h => h1 (h2.trans h)
        simp [h2, this]
      · have h3 : ¬ S = e.1 := fun h => h2 h.symm
        rw [if_neg h2, if_neg h2, List.map_cons]
        simp only [List.mem_cons, h3, false_or]

theorem get_append_single [Zero K] (d : Blocks α K) (R S : V3) (M : α → α → K) (h : R ∉ d.map Prod.fst) :
    get (d ++ [(R, M)]) S = if S = R then M else get d S := by
  induction d with
  | nil =>
    rw [List.nil_append, get_cons]
    by_cases h : S = R
    · rw [if_pos h.symm, if_pos h]
    · rw [if_neg (Ne.symm h), if_neg h]
  | cons e d ih =>
    rw [List.map_cons, List.mem_cons, not_or] at h
    rw [List.cons_append, get_cons, get_cons, ih h.2]
    by_cases h1 : e.1 = S
    · rw [if_pos h1, if_pos h1, if_neg]
      intro h2
      exact h.1 (h2.symm.trans h1.symm)
    · rw [if_neg h1, if_neg h1]

/-- Weighted sums after changing one block. -/
theorem wsum_modify [Zero K] (g : V3 → (α → α → K) → ℂ) (d : Blocks α K) (R : V3) (f : (α → α → K) → α → α → K)
    (hnd : (d.map Prod.fst).Nodup) (h : R ∈ d.map Prod.fst) :
    wsum g (modify d R f) = wsum g d + (g R (f (get d R)) - g R (get d R)) := by
  induction d with
  | nil => simp at h
  | cons e d ih =>
    rw [List.map_cons, List.nodup_cons] at hnd
    rw [show modify (e :: d) R f = (if e.1 = R then (e.1, f e.2) else e) :: modify d R f from rfl, wsum_cons, wsum_cons,
      get_cons]
    by_cases h1 : e.1 = R
    · rw [modify_of_notMem d R f (h1 ▸ hnd.1), if_pos h1, if_pos h1, h1]
      ring
    · rw [if_neg h1, if_neg h1, ih hnd.2]
      · ring
      · rw [List.map_cons, List.mem_cons] at h
        rcases h with h | h
        · exact absurd h.symm h1
        · exact h

/-- Two dictionaries with the same keys and values are the same. -/
theorem eq_map_get [Zero K] (d : Blocks α K) (hnd : (d.map Prod.fst).Nodup) :
    (d.map Prod.fst).map (fun R => (R, get d R)) = d := by
  induction d with
  | nil => rfl
  | cons e d ih =>
    rw [List.map_cons, List.nodup_cons] at hnd
    rw [List.map_cons, List.map_cons, get_cons, if_pos rfl]
    congr 1
    conv_rhs => rw [← ih hnd.2]
    apply List.map_congr_left
    intro R hR
    rw [get_cons, if_neg]
    rintro rfl
    exact hnd.1 hR

/-! ### Sorting -/

theorem lexLe_trans (a b c : V3) (h1 : lexLe a b = true) (h2 : lexLe b c = true) : lexLe a c = true := by
  simp only [lexLe, Bool.or_eq_true, Bool.and_eq_true, decide_eq_true_eq] at *
  omega

theorem lexLe_total (a b : V3) : (lexLe a b || lexLe b a) = true := by
  simp only [lexLe, Bool.or_eq_true, Bool.and_eq_true, decide_eq_true_eq]
  omega

theorem lexLe_antisymm (a b : V3) (h1 : lexLe a b = true) (h2 : lexLe b a = true) : a = b := by
  simp only [lexLe, Bool.or_eq_true, Bool.and_eq_true, decide_eq_true_eq] at *
  obtain ⟨a1, a2, a3⟩ := a
  obtain ⟨b1, b2, b3⟩ := b
  simp only [Prod.mk.injEq]
  simp only at h1 h2
  omega

/-- Specification: strict order of tuples. -/
def LexLt (R S : V3) : Prop := R.1 < S.1 ∨ R.1 = S.1 ∧ (R.2.1 < S.2.1 ∨ R.2.1 = S.2.1 ∧ R.2.2 < S.2.2)

theorem lexLt_of (a b : V3) (h : lexLe a b = true) (hne : a ≠ b) : LexLt a b := by
  obtain ⟨a1, a2, a3⟩ := a
  obtain ⟨b1, b2, b3⟩ := b
  simp only [lexLe, Bool.or_eq_true, Bool.and_eq_true, decide_eq_true_eq, LexLt, ne_eq, Prod.mk.injEq] at *
  omega

theorem sortDict_keys [Zero K] (d : Blocks α K) : (sortDict d).map Prod.fst = (d.map Prod.fst).mergeSort lexLe := by
  unfold sortDict
  rw [List.map_map]
  conv_rhs => rw [← List.map_id ((d.map Prod.fst).mergeSort lexLe)]
  apply List.map_congr_left
  intro R _
  rfl

theorem sortDict_perm [Zero K] (d : Blocks α K) (hnd : (d.map Prod.fst).Nodup) : (sortDict d).Perm d := by
  unfold sortDict
  have h := (List.mergeSort_perm (d.map Prod.fst) lexLe).map fun R => (R, get d R)
  rwa [eq_map_get d hnd] at h

theorem wsum_sortDict [Zero K] (g : V3 → (α → α → K) → ℂ) (d : Blocks α K) (hnd : (d.map Prod.fst).Nodup) :
    wsum g (sortDict d) = wsum g d := by
  unfold wsum
  exact ((sortDict_perm d hnd).map _).sum_eq

theorem sortDict_sorted [Zero K] (d : Blocks α K) (hnd : (d.map Prod.fst).Nodup) :
    ((sortDict d).map Prod.fst).Pairwise LexLt := by
  rw [sortDict_keys]
  have h1 := List.pairwise_mergeSort lexLe_trans lexLe_total (d.map Prod.fst)
  have h2 : ((d.map Prod.fst).mergeSort lexLe).Nodup := (List.mergeSort_perm _ _).nodup_iff.2 hnd
  exact (h1.and h2).imp fun h => lexLt_of _ _ h.1 h.2

theorem get_map_keys [Zero K] (l : List V3) (f : V3 → α → α → K) (R : V3) (hR : R ∈ l) :
    get (l.map fun R => (R, f R)) R = f R := by
  induction l with
  | nil => simp at hR
  | cons S l ih =>
    rw [List.map_cons, get_cons]
    by_cases h : S = R
    · simp [h]
    · rw [if_neg h]
      rw [List.mem_cons] at hR
      rcases hR with h' | h'
      · exact absurd h'.symm h
      · exact ih h'

theorem get_sortDict [Zero K] (d : Blocks α K) (R : V3) : get (sortDict d) R = get d R := by
  by_cases h : R ∈ d.map Prod.fst
  · unfold sortDict
    exact get_map_keys _ _ R ((List.mergeSort_perm _ _).mem_iff.2 h)
  · rw [get_of_notMem d R h, get_of_notMem]
    rw [sortDict_keys]
    intro h'
    exact h ((List.mergeSort_perm _ _).mem_iff.1 h')

theorem sortDict_of_sorted [Zero K] (d : Blocks α K) (h : (d.map Prod.fst).Pairwise LexLt) : sortDict d = d := by
  have hnd : (d.map Prod.fst).Nodup := by
    refine h.imp ?_
    rintro a b h rfl
    unfold LexLt at h
    omega
  have hs : (d.map Prod.fst).mergeSort lexLe = d.map Prod.fst := by
    apply List.mergeSort_of_pairwise
    refine h.imp ?_
    intro a b h
    unfold LexLt at h
    simp only [lexLe, Bool.or_eq_true, Bool.and_eq_true, decide_eq_true_eq]
    omega
  unfold sortDict
  rw [hs, eq_map_get d hnd]

/-! ### `addTo` -/

theorem addTo_keys [Add K] (d : Blocks α K) (R : V3) (M : α → α → K) :
    (addTo d R M).map Prod.fst = if R ∈ d.map Prod.fst then d.map Prod.fst else d.map Prod.fst ++ [R] := by
  unfold addTo
  split
  · exact modify_keys d R fun X a b => X a b + M a b
  · simp

theorem addTo_nodup [Add K] (d : Blocks α K) (R : V3) (M : α → α → K) (hnd : (d.map Prod.fst).Nodup) :
    ((addTo d R M).map Prod.fst).Nodup := by
  rw [addTo_keys]
  split
  · exact hnd
  · rename_i h
    rw [List.nodup_append]
    refine ⟨hnd, List.nodup_singleton R, ?_⟩
    intro a ha b hb
    rw [List.mem_singleton] at hb
    subst hb
    rintro rfl
    exact h ha

theorem mem_addTo [Add K] (d : Blocks α K) (R S : V3) (M : α → α → K) :
    S ∈ (addTo d R M).map Prod.fst ↔ S = R ∨ S ∈ d.map Prod.fst := by
  rw [addTo_keys]
  split
  · rename_i h
    constructor
    · exact Or.inr
    · rintro (rfl | h')
      · exact h
      · exact h'
  · rw [List.mem_append, List.mem_singleton, or_comm]

theorem get_addTo [AddMonoid K] (d : Blocks α K) (R S : V3) (M : α → α → K) (a b : α) :
    get (addTo d R M) S a b = get d S a b + if S = R then M a b else 0 := by
  unfold addTo
  split
  · rename_i h
    have := get_modify d R S fun X a b => X a b + M a b
    unfold modify at this
    rw [this]
    by_cases hS : S = R
    · subst hS
      simp [h]
    · simp [hS]
  · rename_i h
    rw [get_append_single d R S M h]
    by_cases hS : S = R
    · subst hS
      rw [get_of_notMem d S h]
      simp
    · simp [hS]

/-- Weighted sums are additive. -/
theorem wsum_addTo [AddMonoid K] (g : V3 → (α → α → K) → ℂ)
    (hg : ∀ R M M', g R (fun a b => M a b + M' a b) = g R M + g R M') (hz : ∀ R, g R (fun _ _ => 0) = 0)
    (d : Blocks α K) (R : V3) (M : α → α → K) (hnd : (d.map Prod.fst).Nodup) :
    wsum g (addTo d R M) = wsum g d + g R M := by
  unfold addTo
  split
  · rename_i h
    have := wsum_modify g d R (fun X a b => X a b + M a b) hnd h
    unfold modify at this
    rw [this, hg]
    ring
  · rw [wsum_append, wsum_cons, wsum_nil, add_zero]

/-! ### The loop of `standardize` -/

theorem step_nodup [AddMonoid K] (dag : (α → α → K) → α → α → K) (sym : Bool) (d : Blocks α K)
    (e : V3 × (α → α → K)) (hnd : (d.map Prod.fst).Nodup) :
    ((standardizeStep dag sym d e).map Prod.fst).Nodup := by
  unfold standardizeStep
  split
  · simp only
    split
    · exact addTo_nodup _ _ _ (addTo_nodup _ _ _ hnd)
    · exact addTo_nodup _ _ _ hnd
  · exact hnd

theorem fold_nodup [AddMonoid K] (dag : (α → α → K) → α → α → K) (sym : Bool) (l d : Blocks α K)
    (hnd : (d.map Prod.fst).Nodup) : ((l.foldl (standardizeStep dag sym) d).map Prod.fst).Nodup := by
  induction l generalizing d with
  | nil => exact hnd
  | cons e l ih => exact ih _ (step_nodup dag sym d e hnd)

/-- Weighted sums over the collected blocks. -/
theorem wsum_fold [AddMonoid K] (g : V3 → (α → α → K) → ℂ)
    (hg : ∀ R M M', g R (fun a b => M a b + M' a b) = g R M + g R M') (hz : ∀ R, g R (fun _ _ => 0) = 0)
    (dag : (α → α → K) → α → α → K) (hdag : dag (fun _ _ => 0) = fun _ _ => 0) (sym : Bool) (l d : Blocks α K)
    (hnd : (d.map Prod.fst).Nodup) :
    wsum g (l.foldl (standardizeStep dag sym) d) =
      wsum g d + (wsum g l + if sym then wsum (fun R M => g (vneg R) (dag M)) l else 0) := by
  induction l generalizing d with
  | nil => simp [wsum_nil]
  | cons e l ih =>
    rw [List.foldl_cons, ih _ (step_nodup dag sym d e hnd), wsum_cons]
    have hs : wsum g (standardizeStep dag sym d e) =
        wsum g d + (g e.1 e.2 + if sym then g (vneg e.1) (dag e.2) else 0) := by
      unfold standardizeStep
      split
      · cases sym
        · simp only [Bool.false_eq_true, if_false, add_zero]
          exact wsum_addTo g hg hz d _ _ hnd
        · simp only [if_true]
          rw [wsum_addTo g hg hz _ _ _ (addTo_nodup _ _ _ hnd), wsum_addTo g hg hz d _ _ hnd]
          ring
      · rename_i h
        push Not at h
        have : e.2 = fun _ _ => 0 := by
          funext a b
          exact h a b
        rw [this, hdag, hz, hz]
        simp
    rw [hs]
    cases sym
    · simp
      ring
    · simp only [if_true, wsum_cons]
      ring

/-- Keys of the collected blocks. -/
theorem mem_fold [AddMonoid K] (dag : (α → α → K) → α → α → K) (sym : Bool) (l d : Blocks α K) (R : V3) :
    R ∈ (l.foldl (standardizeStep dag sym) d).map Prod.fst ↔
      R ∈ d.map Prod.fst ∨ ∃ e ∈ l, (∃ a b, e.2 a b ≠ 0) ∧ (R = e.1 ∨ sym = true ∧ R = vneg e.1) := by
  induction l generalizing d with
  | nil => simp
  | cons e l ih =>
    rw [List.foldl_cons, ih]
    have hs : R ∈ (standardizeStep dag sym d e).map Prod.fst ↔
        R ∈ d.map Prod.fst ∨ (∃ a b, e.2 a b ≠ 0) ∧ (R = e.1 ∨ sym = true ∧ R = vneg e.1) := by
      unfold standardizeStep
      split
      · rename_i h
        cases sym
        · simp only [Bool.false_eq_true, if_false, false_and, or_false]
          rw [mem_addTo]
          tauto
        · simp only [if_true, true_and]
          rw [mem_addTo, mem_addTo]
          tauto
      · rename_i h
        exact ⟨Or.inl, fun h' => h'.resolve_right fun h'' => h h''.1⟩
    rw [hs]
    constructor
    · rintro ((h | h) | ⟨f, hf, h⟩)
      · exact Or.inl h
      · exact Or.inr ⟨e, List.mem_cons_self, h⟩
      · exact Or.inr ⟨f, List.mem_cons_of_mem _ hf, h⟩
    · rintro (h | ⟨f, hf, h⟩)
      · exact Or.inl (Or.inl h)
      · rcases List.mem_cons.1 hf with rfl | hf
        · exact Or.inl (Or.inr h)
        · exact Or.inr ⟨f, hf, h⟩

/-- Collecting distinct nonzero blocks changes nothing. -/
theorem fold_of_nodup [AddMonoid K] (dag : (α → α → K) → α → α → K) (l d : Blocks α K)
    (hnd : ((d ++ l).map Prod.fst).Nodup) (hnz : ∀ e ∈ l, ∃ a b, e.2 a b ≠ 0) :
    l.foldl (standardizeStep dag false) d = d ++ l := by
  induction l generalizing d with
  | nil => simp
  | cons e l ih =>
    have he : e.1 ∉ d.map Prod.fst := by
      rw [List.map_append, List.nodup_append] at hnd
      intro h
      exact hnd.2.2 _ h e.1 (by simp) rfl
    have hs : standardizeStep dag false d e = d ++ [e] := by
      unfold standardizeStep
      rw [if_pos (hnz e List.mem_cons_self)]
      simp only [Bool.false_eq_true, if_false]
      unfold addTo
      rw [if_neg he]
    rw [List.foldl_cons, hs, ih]
    · rw [List.append_assoc, List.singleton_append]
    · rwa [List.append_assoc, List.singleton_append]
    · exact fun f hf => hnz f (List.mem_cons_of_mem _ hf)

/-- Values of the collected blocks. -/
theorem get_fold [AddCommMonoid K] (dag : (α → α → K) → α → α → K) (l d : Blocks α K) (R : V3) (a b : α) :
    get (l.foldl (standardizeStep dag false) d) R a b =
      get d R a b + (l.map fun e => if e.1 = R then e.2 a b else 0).sum := by
  induction l generalizing d with
  | nil => simp
  | cons e l ih =>
    rw [List.foldl_cons, ih, List.map_cons, List.sum_cons, ← add_assoc]
    congr 1
    unfold standardizeStep
    split
    · simp only [Bool.false_eq_true, if_false]
      rw [get_addTo]
      simp only [eq_comm]
    · rename_i h
      push Not at h
      rw [h a b, ite_self, add_zero]

end Verif.TB
