import Verif.MPI.Model
import Mathlib.Algebra.BigOperators.Group.Finset.Basic
import Mathlib.Algebra.BigOperators.Fin
import Mathlib.Data.List.Basic
import Mathlib.Tactic.Linarith
import Mathlib.Tactic.Ring

/-! Helper lemmas for `Verif.MPI`. -/

namespace Verif.MPI

/-! ### distribute -/

theorem length_incPrefix (n : Nat) (a : List Nat) : (incPrefix n a).length = a.length := by
  simp [incPrefix]; omega

theorem length_distSizes (size chunks : Nat) : (distSizes size chunks).length = chunks := by
  simp [distSizes, length_incPrefix]

theorem distSizes_eq (size chunks : Nat) (h : 0 < chunks) :
    distSizes size chunks = List.replicate (size % chunks) (size / chunks + 1) ++
      List.replicate (chunks - size % chunks) (size / chunks) := by
  have := Nat.mod_lt size h
  simp [distSizes, incPrefix, List.take_replicate, List.drop_replicate, Nat.min_eq_left this.le]

theorem getD_distSizes (size chunks r : Nat) (h : r < chunks) :
    (distSizes size chunks).getD r 0 = size / chunks + if r < size % chunks then 1 else 0 := by
  have hc : 0 < chunks := by omega
  have := Nat.mod_lt size hc
  rw [distSizes_eq size chunks hc]
  simp only [List.getD_eq_getElem?_getD, List.getElem?_append, List.length_replicate]
  split
  · simp [*]
  · rw [List.getElem?_replicate, if_pos (by omega)]; simp

theorem sum_distSizes (size chunks : Nat) (h : 0 < chunks) :
    (distSizes size chunks).sum = size := by
  have := Nat.mod_lt size h
  rw [distSizes_eq size chunks h]
  simp only [List.sum_append, List.sum_replicate, smul_eq_mul]
  obtain ⟨d, hd⟩ : ∃ d, chunks = size % chunks + d := ⟨chunks - size % chunks, by omega⟩
  have e := Nat.div_add_mod size chunks
  have : chunks - size % chunks = d := by omega
  rw [this]
  generalize hq : size / chunks = q at *
  generalize hr : size % chunks = r at *
  subst hd
  nlinarith

theorem length_cumsumFrom (c : Nat) (l : List Nat) : (cumsumFrom c l).length = l.length + 1 := by
  induction l generalizing c with
  | nil => rfl
  | cons a l ih => simp [cumsumFrom, ih]

theorem getD_cumsumFrom (c : Nat) (l : List Nat) (r : Nat) (h : r ≤ l.length) :
    (cumsumFrom c l).getD r 0 = c + (l.take r).sum := by
  induction l generalizing c r with
  | nil => simp at h; subst h; simp [cumsumFrom]
  | cons a l ih =>
    cases r with
    | zero => simp [cumsumFrom]
    | succ r =>
      simp only [cumsumFrom, List.getD_cons_succ, List.take_succ_cons, List.sum_cons]
      rw [ih _ _ (by simpa using h)]; omega

theorem sum_take_succ (l : List Nat) (r : Nat) :
    (l.take (r + 1)).sum = (l.take r).sum + l.getD r 0 := by
  induction l generalizing r with
  | nil => simp
  | cons a l ih => cases r with
    | zero => simp
    | succ r => simp only [List.take_succ_cons, List.sum_cons, List.getD_cons_succ]; rw [ih]; omega

theorem sum_take_mono (l : List Nat) {r s : Nat} (h : r ≤ s) : (l.take r).sum ≤ (l.take s).sum := by
  induction s, h using Nat.le_induction with
  | base => exact le_rfl
  | succ s _ ih => rw [sum_take_succ]; omega

theorem exists_block (l : List Nat) (i : Nat) (h : i < l.sum) :
    ∃ r, r < l.length ∧ (l.take r).sum ≤ i ∧ i < (l.take (r + 1)).sum := by
  induction l generalizing i with
  | nil => simp at h
  | cons a l ih =>
    by_cases hi : i < a
    · exact ⟨0, by simp, by simp, by simpa using hi⟩
    · obtain ⟨r, h1, h2, h3⟩ := ih (i - a) (by simp at h; omega)
      refine ⟨r + 1, by simpa using h1, ?_, ?_⟩
      · simp; omega
      · simp only [List.take_succ_cons, List.sum_cons]; omega

theorem block_unique (l : List Nat) (i r s : Nat) (h1 : (l.take r).sum ≤ i)
    (h2 : i < (l.take (r + 1)).sum) (h3 : (l.take s).sum ≤ i) (h4 : i < (l.take (s + 1)).sum) :
    r = s := by
  by_contra hne
  rcases Nat.lt_or_gt_of_ne hne with h | h
  · have := sum_take_mono l (show r + 1 ≤ s by omega); omega
  · have := sum_take_mono l (show s + 1 ≤ r by omega); omega

/-! ### scatter / gather -/

theorem flatten_scatterv {α : Type} (ss : List Nat) (xs : List α) (h : ss.sum = xs.length) :
    (scatterv ss xs).flatten = xs := by
  induction ss generalizing xs with
  | nil => simp at h; simp [scatterv, List.eq_nil_of_length_eq_zero h.symm]
  | cons s ss ih =>
    simp only [scatterv, List.flatten_cons]
    rw [ih _ (by simp at h ⊢; omega)]
    simp

theorem length_scatterv {α : Type} (ss : List Nat) (xs : List α) :
    (scatterv ss xs).length = ss.length := by
  induction ss generalizing xs with
  | nil => rfl
  | cons s ss ih => simp [scatterv, ih]

/-- What a worker will eventually have computed. -/
def Worker.total {α β : Type} (f : α → β) (w : Worker α β) : List β := w.done ++ w.todo.map f

theorem total_step {α β : Type} (f : α → β) (w : Worker α β) : (w.step f).total f = w.total f := by
  unfold Worker.step
  cases h : w.todo with
  | nil => simp [Worker.total]
  | cons x xs => simp [Worker.total, h]

theorem map_total_schedStep {α β : Type} (f : α → β) (ws : List (Worker α β)) (r : Nat) :
    (schedStep f ws r).map (Worker.total f) = ws.map (Worker.total f) := by
  apply List.ext_getElem?
  intro i
  simp only [schedStep, List.getElem?_map, List.getElem?_modify]
  cases ws[i]? with
  | none => simp
  | some w => by_cases h : r = i <;> simp [h, total_step]

theorem map_total_runSched {α β : Type} (f : α → β) (ws : List (Worker α β)) (sched : List Nat) :
    (runSched f ws sched).map (Worker.total f) = ws.map (Worker.total f) := by
  induction sched generalizing ws with
  | nil => rfl
  | cons r sched ih => exact (ih _).trans (map_total_schedStep f ws r)

/-- Number of open items. -/
def openItems {α β : Type} (ws : List (Worker α β)) : Nat := (ws.map fun w => w.todo.length).sum

/-! ### round robin -/

theorem sum_dealFrom {α M : Type} [AddCommMonoid M] (f : α → M) (size : Nat) (h : 0 < size)
    (n : Nat) (xs : List α) :
    (∑ rank ∈ Finset.range size, ((dealFrom size rank n xs).map f).sum) = (xs.map f).sum := by
  induction xs generalizing n with
  | nil => simp [dealFrom]
  | cons x xs ih =>
    have : ∀ rank, ((dealFrom size rank n (x :: xs)).map f).sum =
        (if rank = n % size then f x else 0) + ((dealFrom size rank (n + 1) xs).map f).sum := by
      intro rank; simp only [dealFrom]; split <;> simp
    simp only [this, Finset.sum_add_distrib, ih, List.map_cons, List.sum_cons]
    rw [Finset.sum_ite_eq' (Finset.range size) (n % size) (fun _ => f x)]
    simp [Nat.mod_lt n h]

theorem count_dealFrom {α : Type} [DecidableEq α] (size : Nat) (h : 0 < size) (n : Nat)
    (xs : List α) (a : α) :
    (∑ rank ∈ Finset.range size, (dealFrom size rank n xs).count a) = xs.count a := by
  have := sum_dealFrom (fun x => if x = a then 1 else 0) size h n xs
  have e : ∀ l : List α, (l.map fun x => if x = a then 1 else 0).sum = l.count a := by
    intro l; induction l with
    | nil => rfl
    | cons b l ih => simp only [List.map_cons, List.sum_cons, ih, List.count_cons, beq_iff_eq]; omega
  simpa only [e] using this

theorem mem_dealFrom_range' (size rank n len i : Nat) :
    i ∈ dealFrom size rank n (List.range' n len) ↔ (n ≤ i ∧ i < n + len) ∧ rank = i % size := by
  induction len generalizing n with
  | zero => simp [dealFrom]
  | succ len ih =>
    simp only [List.range'_succ, dealFrom]
    split
    · rename_i h
      simp only [List.mem_cons, ih]
      constructor
      · rintro (rfl | ⟨h1, h2⟩)
        · exact ⟨by omega, h⟩
        · exact ⟨by omega, h2⟩
      · rintro ⟨h1, h2⟩
        by_cases e : i = n
        · exact Or.inl e
        · exact Or.inr ⟨by omega, h2⟩
    · rename_i h
      simp only [ih]
      constructor
      · rintro ⟨h1, h2⟩; exact ⟨by omega, h2⟩
      · rintro ⟨h1, h2⟩
        refine ⟨?_, h2⟩
        by_cases e : i = n
        · exact absurd (e ▸ h2) h
        · omega

theorem strideFrom_eq_dealFrom {α : Type} (size rank : Nat) (h : rank < size) (n skip : Nat)
    (hs : skip = (rank + size - n % size) % size) (xs : List α) :
    strideFrom size skip xs = dealFrom size rank n xs := by
  induction xs generalizing n skip with
  | nil => cases skip <;> simp [strideFrom, dealFrom]
  | cons x xs ih =>
    have hm := Nat.mod_lt n (show 0 < size by omega)
    have key : (n + 1) % size = if n % size + 1 = size then 0 else n % size + 1 := by
      rw [Nat.add_mod]
      by_cases h1 : size = 1
      · subst h1; simp [Nat.mod_one]
      · rw [Nat.mod_eq_of_lt (show 1 < size by omega)]
        split
        · rename_i e; rw [e, Nat.mod_self]
        · exact Nat.mod_eq_of_lt (by omega)
    by_cases he : rank = n % size
    · have : skip = 0 := by
        rw [hs, ← he, Nat.add_sub_cancel_left, Nat.mod_self]
      subst this
      simp only [strideFrom, dealFrom, if_pos he]
      congr 1
      apply ih
      rw [key]
      split
      · rename_i e
        have : rank + size - 0 = (size - 1) + size := by omega
        rw [this, Nat.add_mod_right, Nat.mod_eq_of_lt (by omega)]
      · have : rank + size - (n % size + 1) = size - 1 := by omega
        rw [this, Nat.mod_eq_of_lt (by omega)]
    · obtain ⟨k, hk⟩ : ∃ k, skip = k + 1 := by
        refine ⟨skip - 1, ?_⟩
        have : skip ≠ 0 := by
          rw [hs]
          rcases Nat.lt_or_gt_of_ne he with hlt | hgt
          · rw [Nat.mod_eq_of_lt (by omega)]; omega
          · have : rank + size - n % size = (rank - n % size) + size := by omega
            rw [this, Nat.add_mod_right, Nat.mod_eq_of_lt (by omega)]; omega
        omega
      subst hk
      simp only [strideFrom, dealFrom, if_neg he]
      apply ih
      rw [key]
      rcases Nat.lt_or_gt_of_ne he with hlt | hgt
      · rw [Nat.mod_eq_of_lt (by omega)] at hs
        split
        · have : rank + size - 0 = rank + size := by omega
          rw [this, Nat.add_mod_right, Nat.mod_eq_of_lt (by omega)]; omega
        · rw [Nat.mod_eq_of_lt (by omega)]; omega
      · have e1 : rank + size - n % size = (rank - n % size) + size := by omega
        rw [e1, Nat.add_mod_right, Nat.mod_eq_of_lt (by omega)] at hs
        rw [if_neg (by omega)]
        have e2 : rank + size - (n % size + 1) = (rank - (n % size + 1)) + size := by omega
        rw [e2, Nat.add_mod_right, Nat.mod_eq_of_lt (by omega)]; omega

/-! ### communicators -/

theorem splitRank_eq_card (color : Nat → Nat) (r : Nat) :
    splitRank color r = ((Finset.range r).filter fun s => color s = color r).card := by
  unfold splitRank
  rw [Finset.card_def]
  simp only [Finset.filter_val, Finset.range_val, Multiset.range, Multiset.filter_coe,
    Multiset.coe_card]
  congr 1

theorem splitRank_lt (color : Nat → Nat) {r s : Nat} (h : r < s) (hc : color r = color s) :
    splitRank color r < splitRank color s := by
  rw [splitRank_eq_card, splitRank_eq_card]
  apply Finset.card_lt_card
  rw [Finset.ssubset_iff_of_subset]
  · exact ⟨r, by simp [h, hc], by simp⟩
  · intro t ht
    simp at ht ⊢
    exact ⟨by omega, ht.2.trans hc⟩

theorem splitRank_inj (color : Nat → Nat) {r s : Nat} (hc : color r = color s)
    (hr : splitRank color r = splitRank color s) : r = s := by
  by_contra hne
  rcases Nat.lt_or_gt_of_ne hne with h | h
  · exact absurd hr (splitRank_lt color h hc).ne
  · exact absurd hr (splitRank_lt color h hc.symm).ne'

theorem splitRank_eq_zero_iff (color : Nat → Nat) (r : Nat) :
    splitRank color r = 0 ↔ ∀ s, s < r → color s ≠ color r := by
  rw [splitRank_eq_card, Finset.card_eq_zero, Finset.filter_eq_empty_iff]
  simp

theorem exists_leader (color : Nat → Nat) (r : Nat) :
    ∃ l, l ≤ r ∧ color l = color r ∧ splitRank color l = 0 := by
  induction r using Nat.strong_induction_on with
  | _ r ih =>
    by_cases h : splitRank color r = 0
    · exact ⟨r, le_rfl, rfl, h⟩
    · rw [splitRank_eq_zero_iff] at h
      push Not at h
      obtain ⟨s, hs, hc⟩ := h
      obtain ⟨l, h1, h2, h3⟩ := ih s hs
      exact ⟨l, by omega, h2.trans hc, h3⟩

theorem colRank_eq (size r : Nat) (h : 0 < size) : colRank size r = r / size := by
  induction r using Nat.strong_induction_on with
  | _ r ih =>
    by_cases hr : r < size
    · rw [Nat.div_eq_of_lt hr]
      unfold colRank
      rw [splitRank_eq_zero_iff]
      intro s hs
      simp only [colColor]
      rw [Nat.mod_eq_of_lt (by omega), Nat.mod_eq_of_lt hr]; omega
    · have h1 := ih (r - size) (by omega)
      have h2 : r / size = (r - size) / size + 1 := by
        rw [Nat.div_eq_sub_div h (by omega)]
      rw [h2, ← h1]
      unfold colRank
      rw [splitRank_eq_card, splitRank_eq_card]
      have hmod : (r - size) % size = r % size := by
        rw [← Nat.mod_eq_sub_mod (by omega)]
      have : ((Finset.range r).filter fun s => colColor size s = colColor size r) =
          insert (r - size) ((Finset.range (r - size)).filter
            fun s => colColor size s = colColor size (r - size)) := by
        ext t
        rw [Finset.mem_filter, Finset.mem_insert, Finset.mem_filter]
        simp only [Finset.mem_range, colColor, hmod]
        constructor
        · rintro ⟨a, b⟩
          by_cases c : t < r - size
          · exact Or.inr ⟨c, b⟩
          · left
            have e1 := Nat.div_add_mod t size
            have e2 := Nat.div_add_mod (r - size) size
            rw [b] at e1; rw [hmod] at e2
            have : t / size = (r - size) / size := by
              have l1 : (r - size) / size ≤ t / size := Nat.div_le_div_right (by omega)
              have l2 : t / size < (r - size) / size + 1 := by
                by_contra hcon
                push Not at hcon
                have := Nat.mul_le_mul_left size hcon
                rw [Nat.mul_add, Nat.mul_one] at this
                omega
              omega
            rw [this] at e1
            omega
        · rintro (rfl | ⟨a, b⟩)
          · exact ⟨by omega, hmod⟩
          · exact ⟨by omega, b⟩
      rw [this, Finset.card_insert_of_notMem (by simp)]

theorem rowRank_eq (size r : Nat) (h : 0 < size) : rowRank size r = r % size := by
  unfold rowRank
  rw [splitRank_eq_card]
  have : ((Finset.range r).filter fun s => rowColor size s = rowColor size r) =
      (Finset.range (r % size)).image fun j => size * (r / size) + j := by
    ext t
    rw [Finset.mem_filter, Finset.mem_image]
    simp only [Finset.mem_range, rowColor]
    constructor
    · rintro ⟨a, b⟩
      have e1 := Nat.div_add_mod t size
      have e2 := Nat.div_add_mod r size
      rw [b] at e1
      exact ⟨t % size, by omega, e1⟩
    · rintro ⟨j, hj, rfl⟩
      have := Nat.mod_lt r h
      have e2 := Nat.div_add_mod r size
      refine ⟨by omega, ?_⟩
      have hz : j / size = 0 := Nat.div_eq_of_lt (by omega)
      rw [Nat.mul_add_div h, hz, Nat.add_zero]
  rw [this, Finset.card_image_of_injective _ (fun a b hab => by simpa using hab)]
  simp

/-! ### broadcast protocol -/

theorem nodeRank_zero (shared : Bool) (machine : Nat → Nat) : nodeRank shared machine 0 = 0 := rfl
theorem imagesRank_zero (shared : Bool) (machine : Nat → Nat) :
    imagesRank shared machine 0 = 0 := rfl

theorem leader_zero (shared : Bool) (machine : Nat → Nat) (r : Nat)
    (h1 : nodeRank shared machine r = 0) (h2 : imagesRank shared machine r = 0) : r = 0 := by
  by_contra h
  have h3 := (splitRank_eq_zero_iff _ _).1 h2 0 (by omega)
  apply h3
  cases shared with
  | false => rfl
  | true => simp only [imagesColor, if_true]; rw [h1, nodeRank_zero]

/-- Invariant of the broadcast protocol. -/
structure BInv {α : Type} (n : Nat) (shared : Bool) (machine : Nat → Nat) (data : α)
    (s : BState α) : Prop where
  root : 1 ≤ s.pc 0 → s.mem (nodeColor shared machine 0) = data
  msg : ∀ v, s.msg = some v → v = data
  sent : 2 ≤ s.pc 0 → s.msg ≠ none
  leader : ∀ r, r < n → nodeRank shared machine r = 0 → 2 ≤ s.pc r →
    s.mem (nodeColor shared machine r) = data
  barrier : ∀ r, r < n → 3 ≤ s.pc r → ∀ t, t < n → 2 ≤ s.pc t
  le3 : ∀ r, s.pc r ≤ 3

theorem binv_init {α : Type} (n : Nat) (shared : Bool) (machine : Nat → Nat) (data : α)
    (mem : Nat → α) : BInv n shared machine data (binit mem) := by
  constructor <;> simp [binit]

theorem binv_step {α : Type} (n : Nat) (shared : Bool) (machine : Nat → Nat) (data : α)
    (s : BState α) (r : Nat) (h : BInv n shared machine data s) :
    BInv n shared machine data (bstep n shared machine data s r) := by
  unfold bstep
  by_cases hr : r < n
  swap
  · rw [if_neg hr]; exact h
  rw [if_pos hr]
  have hbar : ∀ k, s.pc r < 3 → 2 ≤ k ∨ (∀ t, t < n → s.pc t < 3) → k ≤ 2 →
      s.pc r ≤ k →
      ∀ q, q < n → 3 ≤ upd s.pc r k q → ∀ t, t < n → 2 ≤ upd s.pc r k t := by
    intro k h0 hk hk2 hle q hq h3 t ht
    have hqr : q ≠ r := by intro e; simp [upd, e] at h3; omega
    simp only [upd, if_neg hqr] at h3
    have h4 := h.barrier q hq h3
    rcases hk with hk | hk
    · simp only [upd]; split
      · exact hk
      · exact h4 t ht
    · exact absurd h3 (by have := hk q hq; omega)
  split
  · -- pc = 0
    rename_i hpc
    have hno : ∀ t, t < n → s.pc t < 3 := by
      intro t ht
      by_contra hc
      have := h.barrier t ht (by omega) r hr
      omega
    constructor
    · intro hp
      simp only
      by_cases h0 : r = 0
      · subst h0; simp [upd]
      · simp only [if_neg h0]
        apply h.root
        simpa [upd, Ne.symm h0] using hp
    · exact h.msg
    · intro hp
      apply h.sent
      by_cases h0 : r = 0
      · subst h0; simp [upd] at hp
      · simpa [upd, Ne.symm h0] using hp
    · intro q hq hn h2
      simp only at h2 ⊢
      by_cases e : q = r
      · subst e; simp [upd] at h2
      · simp only [upd, if_neg e] at h2
        have h3 := h.leader q hq hn h2
        split
        · simp only [upd]; split
          · rfl
          · exact h3
        · exact h3
    · exact hbar 1 (by omega) (Or.inr hno) (by omega) (by omega)
    · intro q
      simp only [upd]; split
      · omega
      · exact h.le3 q
  · -- pc = 1
    rename_i hpc
    by_cases hn : nodeRank shared machine r = 0
    · rw [if_pos hn]
      by_cases hi : imagesRank shared machine r = 0
      · rw [if_pos hi]
        have h0 := leader_zero shared machine r hn hi
        subst h0
        have hm := h.root (by omega)
        constructor
        · intro _; exact hm
        · intro v hv; simp at hv; rw [← hv, hm]
        · intro _; simp
        · intro q hq hnq h2
          simp only at h2 ⊢
          by_cases e : q = 0
          · subst e; exact hm
          · simp only [upd, if_neg e] at h2; exact h.leader q hq hnq h2
        · exact hbar 2 (by omega) (Or.inl le_rfl) le_rfl (by omega)
        · intro q
          simp only [upd]; split
          · omega
          · exact h.le3 q
      · rw [if_neg hi]
        split
        · exact h
        · rename_i v hv
          have hvd := h.msg v hv
          subst hvd
          have hr0 : r ≠ 0 := by
            rintro rfl; exact hi (imagesRank_zero shared machine)
          constructor
          · intro hp
            simp only [upd]; split
            · rfl
            · apply h.root; simpa [upd, Ne.symm hr0] using hp
          · exact h.msg
          · intro hp; apply h.sent; simpa [upd, Ne.symm hr0] using hp
          · intro q hq hnq h2
            simp only [upd] at h2 ⊢
            split
            · rfl
            · rename_i e
              by_cases e2 : q = r
              · subst e2; exact absurd rfl e
              · simp only [if_neg e2] at h2; exact h.leader q hq hnq h2
          · exact hbar 2 (by omega) (Or.inl le_rfl) le_rfl (by omega)
          · intro q
            simp only [upd]; split
            · omega
            · exact h.le3 q
    · rw [if_neg hn]
      have hr0 : r ≠ 0 := by
        rintro rfl; exact hn (nodeRank_zero shared machine)
      constructor
      · intro hp; apply h.root; simpa [upd, Ne.symm hr0] using hp
      · exact h.msg
      · intro hp; apply h.sent; simpa [upd, Ne.symm hr0] using hp
      · intro q hq hnq h2
        by_cases e2 : q = r
        · subst e2; exact absurd hnq hn
        · simp only [upd, if_neg e2] at h2; exact h.leader q hq hnq h2
      · exact hbar 2 (by omega) (Or.inl le_rfl) le_rfl (by omega)
      · intro q
        simp only [upd]; split
        · omega
        · exact h.le3 q
  · -- pc = 2
    rename_i hpc
    split
    · rename_i hb
      simp only [barrierOpen, List.all_eq_true, List.mem_range, decide_eq_true_eq] at hb
      constructor
      · intro _; apply h.root
        by_cases e : (0 : Nat) = r
        · subst e; omega
        · have := hb 0 (by omega); omega
      · exact h.msg
      · intro _; apply h.sent; exact hb 0 (by omega)
      · intro q hq hnq _; exact h.leader q hq hnq (hb q hq)
      · intro q _ _ t ht
        simp only [upd]; split
        · omega
        · exact hb t ht
      · intro q
        simp only [upd]; split
        · omega
        · exact h.le3 q
    · exact h
  · exact h

theorem binv_run {α : Type} (n : Nat) (shared : Bool) (machine : Nat → Nat) (data : α)
    (s : BState α) (sched : List Nat) (h : BInv n shared machine data s) :
    BInv n shared machine data (brun n shared machine data s sched) := by
  induction sched generalizing s with
  | nil => exact h
  | cons r sched ih => exact ih _ (binv_step n shared machine data s r h)

/-! ### end of `elph.sample` -/

theorem lt_rowSize (n nq r o : Nat) (hq : 0 < nq) (h1 : o < n) (ho : o < nq)
    (hc : r / nq = 0) : o < rowSize nq n r := by
  have hsub : (List.range (o + 1)).Sublist
      ((List.range n).filter fun s => rowColor nq s == rowColor nq r) := by
    have e : (List.range (o + 1)).filter (fun s => rowColor nq s == rowColor nq r) =
        List.range (o + 1) := by
      rw [List.filter_eq_self]
      intro s hs
      simp only [List.mem_range] at hs
      simp only [rowColor, hc, beq_iff_eq]
      exact Nat.div_eq_of_lt (by omega)
    rw [← e]
    exact (List.range_sublist.2 (by omega)).filter _
  have := hsub.length_le
  simp only [List.length_range] at this
  unfold rowSize splitSize
  omega

/-- Invariant for the processes with `col.rank == 0`. -/
structure GInv (n nq : Nat) (s : GState) : Prop where
  wr : ∀ r, r < n → colRank nq r = 0 →
    (rowRank nq r < s.pc r ∨ (s.pc r = rowRank nq r ∧ s.arrived r = true)) →
    ∀ iq, iq ∈ sampleRange n nq r → s.written iq = true
  sync : ∀ r t, r < n → t < n → colRank nq r = 0 → colRank nq t = 0 → ∀ k, k < s.pc r →
    k < s.pc t ∨ (s.pc t = k ∧ s.arrived t = true)
  ret : ∀ r, r < n → colRank nq r = 0 → s.returned r = true → rowSize nq n r ≤ s.pc r

theorem ginv_init (n nq : Nat) : GInv n nq ginit := by
  constructor <;> simp [ginit]

theorem ginv_step (n nq : Nat) (s : GState) (r : Nat) (h : GInv n nq s) :
    GInv n nq (gstep n nq s r) := by
  unfold gstep
  split
  swap
  · exact h
  rename_i hr
  split
  · rename_i hcr
    constructor
    · exact h.wr
    · exact h.sync
    · intro q hq hc hret
      have : q ≠ r := by rintro rfl; exact hcr hc
      apply h.ret q hq hc
      simpa [upd, this] using hret
  rename_i hcr
  push Not at hcr
  split
  · split
    · rename_i ha
      split
      · rename_i hb
        simp only [gBarrierOpen, List.all_eq_true, List.mem_range, Bool.or_eq_true,
          Bool.and_eq_true, decide_eq_true_eq, bne_iff_ne] at hb
        constructor
        · intro q hq hc hp iq hiq
          apply h.wr q hq hc _ iq hiq
          by_cases e : q = r
          · subst e
            simp [upd] at hp
            by_cases e2 : rowRank nq q < s.pc q
            · exact Or.inl e2
            · exact Or.inr ⟨by omega, ha⟩
          · simpa [upd, e] using hp
        · intro q t hq ht hc hct k hk
          simp only [upd] at hk ⊢
          have h1 : k < s.pc q ∨ k = s.pc r := by
            split at hk
            · rename_i e; subst e; omega
            · exact Or.inl hk
          have h2 : k < s.pc t ∨ (s.pc t = k ∧ s.arrived t = true) := by
            rcases h1 with h1 | h1
            · exact h.sync q t hq ht hc hct k h1
            · subst h1
              rcases hb t ht with (hb | hb) | hb
              · exact absurd hct hb
              · exact Or.inl hb
              · exact Or.inr hb
          split
          · rename_i e; subst e; left; omega
          · exact h2
        · intro q hq hc hret
          have := h.ret q hq hc hret
          simp only [upd]; split
          · rename_i e; subst e; omega
          · exact this
      · exact h
    · rename_i ha
      constructor
      · intro q hq hc hp iq hiq
        by_cases e : q = r
        · subst e
          simp only [upd, if_true] at hp ⊢
          by_cases e2 : s.pc q = rowRank nq q
          · simp [e2, hiq]
          · simp only [if_neg e2]
            exact h.wr q hq hc (by omega) iq hiq
        · have := h.wr q hq hc (by simpa [upd, e] using hp) iq hiq
          simp only; split
          · simp [this]
          · exact this
      · intro q t hq ht hc hct k hk
        have := h.sync q t hq ht hc hct k hk
        rcases this with h1 | ⟨h1, h2⟩
        · exact Or.inl h1
        · right; refine ⟨h1, ?_⟩
          simp only [upd]; split
          · rfl
          · exact h2
      · exact h.ret
  · rename_i hlt
    constructor
    · exact h.wr
    · exact h.sync
    · intro q hq hc hret
      by_cases e : q = r
      · subst e; simp only; omega
      · apply h.ret q hq hc
        simpa [upd, e] using hret

theorem ginv_run (n nq : Nat) (s : GState) (sched : List Nat) (h : GInv n nq s) :
    GInv n nq (grun n nq s sched) := by
  induction sched generalizing s with
  | nil => exact h
  | cons r sched ih => exact ih _ (ginv_step n nq s r h)

end Verif.MPI
