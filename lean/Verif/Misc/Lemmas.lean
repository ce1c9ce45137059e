import Verif.Misc.Model
import Mathlib.Logic.Relation
import Mathlib.Tactic.Ring
import Mathlib.Tactic.Linarith
import Mathlib.Tactic.FieldSimp
import Mathlib.Algebra.BigOperators.Group.List.Basic
import Mathlib.Algebra.Order.Ring.Abs

/-! Helper lemmas for `Verif.Misc`. -/

namespace Verif.Misc

/-! ### StatusBar -/

/-- Output of a completed bar. -/
def fullBlock (p : Nat × Nat) : List Ev :=
  Ev.title p.1 :: (List.replicate p.2 (Ev.eq p.1) ++ [Ev.nl p.1])

/-- Output of the active bar so far. -/
def openBlock (s : SB) : List Ev :=
  match s.active with
  | none => []
  | some i =>
    match s.bars[i]? with
    | some (some b) => Ev.title i :: List.replicate (b.width * b.counter / b.count) (Ev.eq i)
    | _ => []

/-- Invariant of the progress bars. `done` lists number and width of completed bars. -/
structure SBInv (s : SB) (done : List (Nat × Nat)) : Prop where
  out : s.out = done.flatMap fullBlock ++ openBlock s
  rank : s.rank0 = false → s.active = none ∧ done = []
  act : ∀ i, s.active = some i → ∃ b, s.bars[i]? = some (some b) ∧ b.counter < b.count
  prog : ∀ i b, s.bars[i]? = some (some b) → b.progress = b.width * b.counter / b.count ∧
    b.counter ≤ b.count ∧ 0 < b.count ∧ (b.counter < b.count → s.active = some i)
  fin : ∀ i w, (i, w) ∈ done ↔ ∃ b, s.bars[i]? = some (some b) ∧ b.width = w ∧ b.counter = b.count
  nodup : (done.map Prod.fst).Nodup

theorem sbinv_init (rank0 : Bool) : SBInv (sbInit rank0) [] := by
  constructor <;> simp [sbInit, openBlock]

theorem mul_div_le_mul_succ_div (w c n : Nat) : w * c / n ≤ w * (c + 1) / n :=
  Nat.div_le_div_right (Nat.mul_le_mul_left _ (Nat.le_succ _))

theorem sbinv_new (s : SB) (done : List (Nat × Nat)) (c w v : Nat) (h : SBInv s done) :
    SBInv (sbNew s c w v) done := by
  unfold sbNew
  split
  · constructor
    · rw [h.out]
      congr 1
      unfold openBlock
      cases ha : s.active with
      | none => rfl
      | some i =>
        obtain ⟨b, hb, _⟩ := h.act i ha
        have hi : i < s.bars.length := by
          by_contra hc; rw [List.getElem?_eq_none (by omega)] at hb; simp at hb
        simp only [List.getElem?_append_left hi, hb]
    · exact h.rank
    · intro i hi
      obtain ⟨b, hb, h2⟩ := h.act i hi
      have hl : i < s.bars.length := by
        by_contra hc; rw [List.getElem?_eq_none (by omega)] at hb; simp at hb
      exact ⟨b, by rw [List.getElem?_append_left hl]; exact hb, h2⟩
    · intro i b hb
      have : s.bars[i]? = some (some b) := by
        simp only [List.getElem?_append] at hb
        split at hb
        · exact hb
        · rw [List.getElem?_singleton] at hb; split at hb <;> simp at hb
      exact h.prog i b this
    · intro i w'
      rw [h.fin]
      constructor
      · rintro ⟨b, hb, h2⟩
        have hl : i < s.bars.length := by
          by_contra hc; rw [List.getElem?_eq_none (by omega)] at hb; simp at hb
        exact ⟨b, by rw [List.getElem?_append_left hl]; exact hb, h2⟩
      · rintro ⟨b, hb, h2⟩
        refine ⟨b, ?_, h2⟩
        simp only [List.getElem?_append] at hb
        split at hb
        · exact hb
        · rw [List.getElem?_singleton] at hb; split at hb <;> simp at hb
    · exact h.nodup
  · rename_i hg
    push Not at hg
    obtain ⟨hc, ⟨hr, ha⟩, hv⟩ := hg
    have hlen : ∀ (i : Nat) (b : Bar), (s.bars ++ [some ({ count := c, width := w, counter := 0, progress := 0 } : Bar)])[i]?
        = some (some b) → s.bars[i]? = some (some b) ∨
          (i = s.bars.length ∧ b = { count := c, width := w, counter := 0, progress := 0 }) := by
      intro i b hb
      simp only [List.getElem?_append] at hb
      split at hb
      · exact Or.inl hb
      · rw [List.getElem?_singleton] at hb
        split at hb
        · right
          simp at hb
          exact ⟨by omega, hb.symm⟩
        · simp at hb
    have hold : ∀ (i : Nat) (b : Bar), s.bars[i]? = some (some b) →
        (s.bars ++ [some ({ count := c, width := w, counter := 0, progress := 0 } : Bar)])[i]?
        = some (some b) := by
      intro i b hb
      have hl : i < s.bars.length := by
        by_contra hc; rw [List.getElem?_eq_none (by omega)] at hb; simp at hb
      rw [List.getElem?_append_left hl]; exact hb
    constructor
    · simp [openBlock, h.out, ha]
    · intro h0; simp only at h0; rw [h0] at hr; exact absurd rfl hr
    · intro i hi
      simp only [Option.some.injEq] at hi
      subst hi
      exact ⟨{ count := c, width := w, counter := 0, progress := 0 }, by simp, by simp; omega⟩
    · intro i b hb
      rcases hlen i b hb with h1 | ⟨h1, h2⟩
      · obtain ⟨p1, p2, p3, p4⟩ := h.prog i b h1
        exact ⟨p1, p2, p3, fun hlt => by have := p4 hlt; rw [ha] at this; simp at this⟩
      · subst h1 h2; simp; omega
    · intro i w'
      rw [h.fin]
      constructor
      · rintro ⟨b, hb, h2⟩; exact ⟨b, hold i b hb, h2⟩
      · rintro ⟨b, hb, h2, h3⟩
        rcases hlen i b hb with h1 | ⟨h1, h4⟩
        · exact ⟨b, h1, h2, h3⟩
        · subst h4; simp at h3; omega
    · exact h.nodup

theorem sbinv_update (s : SB) (done : List (Nat × Nat)) (id : Nat) (h : SBInv s done) :
    ∃ done', SBInv (sbUpdate s id) done' ∧ done <+: done' := by
  unfold sbUpdate
  split
  · exact ⟨done, h, List.prefix_rfl⟩
  rename_i hact
  push Not at hact
  obtain ⟨b, hb, hlt⟩ := h.act id hact
  simp only [hb]
  have hl : id < s.bars.length := by
    by_contra hc; rw [List.getElem?_eq_none (by omega)] at hb; simp at hb
  obtain ⟨p1, p2, p3, p4⟩ := h.prog id b hb
  have hrk : s.rank0 ≠ false := by
    intro hr; have := (h.rank hr).1; rw [hact] at this; simp at this
  have hout : (if b.width * (b.counter + 1) / b.count ≠ b.progress then
        s.out ++ List.replicate (b.width * (b.counter + 1) / b.count - b.progress) (Ev.eq id)
      else s.out) = done.flatMap fullBlock ++
        (Ev.title id :: List.replicate (b.width * (b.counter + 1) / b.count) (Ev.eq id)) := by
    have hm := mul_div_le_mul_succ_div b.width b.counter b.count
    have ho : s.out = done.flatMap fullBlock ++
        (Ev.title id :: List.replicate (b.width * b.counter / b.count) (Ev.eq id)) := by
      rw [h.out]; simp [openBlock, hact, hb]
    rw [ho, p1]
    split
    · rw [List.append_assoc, List.cons_append, List.replicate_append_replicate]
      congr 4; omega
    · rename_i he; push Not at he; rw [he]
  have hset : ∀ i (b' : Bar), (s.bars.set id (some b'))[i]? =
      if i = id then some (some b') else s.bars[i]? := by
    intro i b'
    rw [List.getElem?_set]
    by_cases e : id = i
    · subst e; simp [hl]
    · simp [e, Ne.symm e]
  split
  · rename_i hfin
    refine ⟨done ++ [(id, b.width)], ?_, List.prefix_append _ _⟩
    constructor
    · simp only [openBlock, List.append_nil]
      rw [hout, hfin, Nat.mul_div_cancel _ p3]
      simp [fullBlock]
    · intro hr; exact absurd hr hrk
    · intro i hi; simp at hi
    · intro i b' hb'
      simp only [hset] at hb'
      split at hb'
      · simp at hb'; subst hb'; simp; omega
      · rename_i hne
        obtain ⟨q1, q2, q3, q4⟩ := h.prog i b' hb'
        refine ⟨q1, q2, q3, fun hlt' => ?_⟩
        have := q4 hlt'; rw [hact] at this; simp at this; exact absurd this.symm hne
    · intro i w'
      simp only [List.mem_append, List.mem_singleton, hset, h.fin, Prod.mk.injEq]
      constructor
      · rintro (⟨b', hb', h2, h3⟩ | ⟨rfl, rfl⟩)
        · have hne : i ≠ id := by
            rintro rfl; rw [hb] at hb'; simp at hb'; subst hb'; omega
          exact ⟨b', by simp [hne, hb'], h2, h3⟩
        · exact ⟨(⟨b.count, b.width, b.counter + 1, b.width * (b.counter + 1) / b.count⟩ : Bar), by simp, rfl, hfin⟩
      · rintro ⟨b', hb', h2, h3⟩
        split at hb'
        · rename_i he; simp at hb'; subst hb'; right; exact ⟨he, h2.symm⟩
        · left; exact ⟨b', hb', h2, h3⟩
    · simp only [List.map_append, List.map_cons, List.map_nil]
      rw [List.nodup_append]
      refine ⟨h.nodup, by simp, ?_⟩
      intro a ha c hc
      simp at hc
      subst hc
      rintro rfl
      simp only [List.mem_map] at ha
      obtain ⟨⟨i, w⟩, hm, rfl⟩ := ha
      obtain ⟨b', hb', _, h3⟩ := (h.fin i w).1 hm
      simp only at hb hb'
      rw [hb] at hb'; simp at hb'; subst hb'; omega
  · rename_i hfin
    refine ⟨done, ?_, List.prefix_rfl⟩
    constructor
    · simp only [openBlock, hact, hset, if_true]
      exact hout
    · intro hr; exact absurd hr hrk
    · intro i hi
      simp only at hi
      rw [hact] at hi; simp at hi; subst hi
      exact ⟨(⟨b.count, b.width, b.counter + 1, b.width * (b.counter + 1) / b.count⟩ : Bar), by simp [hset], by simp; omega⟩
    · intro i b' hb'
      simp only [hset] at hb'
      split at hb'
      · rename_i he; simp at hb'; subst hb'; subst he; simp; exact ⟨by omega, by omega, fun _ => hact⟩
      · exact h.prog i b' hb'
    · intro i w'
      simp only [hset, h.fin]
      constructor
      · rintro ⟨b', hb', h2, h3⟩
        have hne : i ≠ id := by
          rintro rfl; rw [hb] at hb'; simp at hb'; subst hb'; omega
        exact ⟨b', by simp [hne, hb'], h2, h3⟩
      · rintro ⟨b', hb', h2, h3⟩
        split at hb'
        · simp at hb'; subst hb'; exact absurd h3 hfin
        · exact ⟨b', hb', h2, h3⟩
    · exact h.nodup

theorem sbinv_run (s : SB) (done : List (Nat × Nat)) (ops : List SBOp) (h : SBInv s done) :
    ∃ done', SBInv (sbRun s ops) done' ∧ done <+: done' := by
  induction ops generalizing s done with
  | nil => exact ⟨done, h, List.prefix_rfl⟩
  | cons op ops ih =>
    cases op with
    | new c w v => exact ih _ _ (sbinv_new s done c w v h)
    | update id =>
      obtain ⟨d, hd, hp⟩ := sbinv_update s done id h
      obtain ⟨d', hd', hp'⟩ := ih _ _ hd
      exact ⟨d', hd', hp.trans hp'⟩

/-- Number of `update` calls of bar `id` in a history. -/
def countUpd (id : Nat) : List SBOp → Nat
  | [] => 0
  | .update i :: ops => (if i = id then 1 else 0) + countUpd id ops
  | .new _ _ _ :: ops => countUpd id ops

/-- Bar `id` exists with given parameters and has been updated `k` times. -/
def barAt (s : SB) (id c w k : Nat) : Prop :=
  ∃ b, s.bars[id]? = some (some b) ∧ b.count = c ∧ b.width = w ∧ b.counter = min c k

theorem barAt_run (s : SB) (done : List (Nat × Nat)) (h : SBInv s done) (id c w k : Nat)
    (hb : barAt s id c w k) (ops : List SBOp) :
    barAt (sbRun s ops) id c w (k + countUpd id ops) := by
  induction ops generalizing s done k with
  | nil => simpa [sbRun, countUpd] using hb
  | cons op ops ih =>
    cases op with
    | new c' w' v' =>
      refine ih _ _ (sbinv_new s done c' w' v' h) k ?_
      obtain ⟨b, h1, h2⟩ := hb
      refine ⟨b, ?_, h2⟩
      have hl : id < s.bars.length := by
        by_contra hc; rw [List.getElem?_eq_none (by omega)] at h1; simp at h1
      simp only [sbNew]
      split <;> simp only [List.getElem?_append_left hl, h1]
    | update i =>
      obtain ⟨d, hd, _⟩ := sbinv_update s done i h
      have key : barAt (sbUpdate s i) id c w (k + if i = id then 1 else 0) := by
        obtain ⟨b, h1, h2, h3, h4⟩ := hb
        obtain ⟨p1, p2, p3, p4⟩ := h.prog id b h1
        have hl : id < s.bars.length := by
          by_contra hc; rw [List.getElem?_eq_none (by omega)] at h1; simp at h1
        unfold sbUpdate
        split
        · rename_i hact
          refine ⟨b, h1, h2, h3, ?_⟩
          split
          · rename_i e
            subst e
            have : ¬ b.counter < b.count := fun hlt => hact (p4 hlt)
            omega
          · omega
        · rename_i hact
          push Not at hact
          by_cases e : i = id
          · subst e
            have hlt : b.counter < b.count := by
              obtain ⟨b', hb', h'⟩ := h.act i hact
              rw [h1] at hb'; simp at hb'; subst hb'; exact h'
            simp only [h1, if_true]
            refine ⟨(⟨b.count, b.width, b.counter + 1, b.width * (b.counter + 1) / b.count⟩ : Bar), ?_, h2, h3, ?_⟩
            · split <;> simp [hl]
            · simp only; omega
          · obtain ⟨b', hb', h'⟩ := h.act i hact
            simp only [hb', if_neg e]
            refine ⟨b, ?_, h2, h3, by omega⟩
            split <;> simp [e, h1]
      have := ih _ _ hd _ key
      simpa [sbRun, sbStep, countUpd, Nat.add_assoc] using this

/-! ### group -/

theorem relabel_eq_iff (g : Nat → Nat) (i j x y : Nat) (E : Nat → Nat → Prop)
    (hE : ∀ x y, g x = g y ↔ Relation.EqvGen E x y) :
    relabel g i j x = relabel g i j y ↔
      Relation.EqvGen (fun a b => E a b ∨ (a = i ∧ b = j)) x y := by
  have hsub : ∀ a b, Relation.EqvGen E a b →
      Relation.EqvGen (fun a b => E a b ∨ (a = i ∧ b = j)) a b :=
    fun a b => Relation.EqvGen.mono (fun a b hab => Or.inl hab) a b
  have hij : Relation.EqvGen (fun a b => E a b ∨ (a = i ∧ b = j)) i j :=
    .rel _ _ (Or.inr ⟨rfl, rfl⟩)
  constructor
  · intro h
    unfold relabel at h
    split at h <;> split at h
    · rename_i h1 h2; exact hsub _ _ ((hE _ _).1 (h1.trans h2.symm))
    · rename_i h1 h2
      exact .trans _ _ _ (hsub _ _ ((hE _ _).1 h1)) (.trans _ _ _ (.symm _ _ hij)
        (hsub _ _ ((hE _ _).1 h)))
    · rename_i h1 h2
      exact .trans _ _ _ (hsub _ _ ((hE _ _).1 h)) (.trans _ _ _ hij
        (hsub _ _ ((hE _ _).1 h2.symm)))
    · exact hsub _ _ ((hE _ _).1 h)
  · intro h
    induction h with
    | rel a b hab =>
      rcases hab with hab | ⟨rfl, rfl⟩
      · have := (hE a b).2 (.rel _ _ hab)
        unfold relabel; rw [this]
      · unfold relabel; simp
    | refl a => rfl
    | symm a b _ ih => exact ih.symm
    | trans a b c _ _ ih1 ih2 => exact ih1.trans ih2

section
variable {K : Type} [Ring K] [LinearOrder K]

theorem foldl_groupStep (points : Nat → Nat → K) (d : Nat) (eps : K) (ps : List (Nat × Nat))
    (g : Nat → Nat) (E : Nat → Nat → Prop)
    (hE : ∀ x y, g x = g y ↔ Relation.EqvGen E x y) (x y : Nat) :
    ps.foldl (groupStep points d eps) g x = ps.foldl (groupStep points d eps) g y ↔
      Relation.EqvGen (fun a b => E a b ∨ ((a, b) ∈ ps ∧ near points d eps a b = true)) x y := by
  induction ps generalizing g E with
  | nil => simp [hE]
  | cons p ps ih =>
    simp only [List.foldl_cons]
    by_cases hn : near points d eps p.1 p.2 = true
    · have hstep : ∀ x y, groupStep points d eps g p x = groupStep points d eps g p y ↔
          Relation.EqvGen (fun a b => E a b ∨ (a = p.1 ∧ b = p.2)) x y := by
        intro x y
        simp only [groupStep, hn, if_true]
        exact relabel_eq_iff g p.1 p.2 x y E hE
      rw [ih _ _ hstep]
      have : (fun a b => (E a b ∨ (a = p.1 ∧ b = p.2)) ∨
          ((a, b) ∈ ps ∧ near points d eps a b = true)) =
          (fun a b => E a b ∨ ((a, b) ∈ p :: ps ∧ near points d eps a b = true)) := by
        funext a b
        apply propext
        constructor
        · rintro ((h | ⟨rfl, rfl⟩) | ⟨h1, h2⟩)
          · exact Or.inl h
          · exact Or.inr ⟨List.mem_cons_self, hn⟩
          · exact Or.inr ⟨List.mem_cons_of_mem _ h1, h2⟩
        · rintro (h | ⟨h1, h2⟩)
          · exact Or.inl (Or.inl h)
          · rcases List.mem_cons.1 h1 with h3 | h3
            · left; right; rw [← h3]; exact ⟨rfl, rfl⟩
            · exact Or.inr ⟨h3, h2⟩
      rw [this]
    · have hstep : groupStep points d eps g p = g := by simp [groupStep, hn]
      rw [hstep, ih _ _ hE]
      have : (fun a b => E a b ∨ ((a, b) ∈ ps ∧ near points d eps a b = true)) =
          (fun a b => E a b ∨ ((a, b) ∈ p :: ps ∧ near points d eps a b = true)) := by
        funext a b
        apply propext
        constructor
        · rintro (h | ⟨h1, h2⟩)
          · exact Or.inl h
          · exact Or.inr ⟨List.mem_cons_of_mem _ h1, h2⟩
        · rintro (h | ⟨h1, h2⟩)
          · exact Or.inl h
          · rcases List.mem_cons.1 h1 with h3 | h3
            · subst h3; exact absurd h2 hn
            · exact Or.inr ⟨h3, h2⟩
      rw [this]

theorem mem_groupPairs (n i j : Nat) : (i, j) ∈ groupPairs n ↔ i < j ∧ j < n := by
  simp only [groupPairs, List.mem_flatMap, List.mem_range, List.mem_map, List.mem_range'_1,
    Prod.mk.injEq]
  constructor
  · rintro ⟨a, h1, b, h2, rfl, rfl⟩; omega
  · rintro ⟨h1, h2⟩; exact ⟨i, by omega, j, by omega, rfl, rfl⟩

end

/-! ### differential -/

section
variable {K : Type} [Field K]

/-- Weights of all points but the first (before halving). -/
def tailW : K → K → List K → List K
  | a, b, [] => [b - a]
  | a, b, c :: r => (c - a) :: tailW b c r

theorem tailW_eq (a b : K) (r : List K) :
    List.zipWith (· - ·) r ((a :: b :: r).take r.length) ++
      [(a :: b :: r).getD (r.length + 1) 0 - (a :: b :: r).getD r.length 0] = tailW a b r := by
  induction r generalizing a b with
  | nil => simp [tailW]
  | cons c r ih =>
    have := ih b c
    simp only [tailW, List.length_cons, List.take_succ_cons, List.zipWith_cons_cons,
      List.cons_append, List.getD_cons_succ] at this ⊢
    rw [this]

/-- Trapezoidal rule as a sum over intervals. -/
def trapezoid : List K → List K → K
  | a :: b :: r, f :: g :: fs => (b - a) * (f + g) / 2 + trapezoid (b :: r) (g :: fs)
  | _, _ => 0

/-- Dot product of lists. -/
def dot : List K → List K → K
  | x :: xs, y :: ys => x * y + dot xs ys
  | _, _ => 0

theorem dot_tailW (a b : K) (r : List K) (g : K) (fs : List K) (h : fs.length = r.length) :
    dot ((tailW a b r).map (· / 2)) (g :: fs) =
      (b - a) / 2 * g + trapezoid (b :: r) (g :: fs) := by
  induction r generalizing a b g fs with
  | nil =>
    cases fs with
    | nil => simp [tailW, dot, trapezoid]
    | cons _ _ => simp at h
  | cons c r ih =>
    cases fs with
    | nil => simp at h
    | cons g2 fs =>
      simp only [tailW, List.map_cons, dot, trapezoid]
      rw [ih b c g2 fs (by simpa using h)]
      ring

theorem sum_tailW [CharZero K] (a b : K) (r : List K) :
    ((tailW a b r).map (· / 2)).sum =
      (b :: r).getLast (by simp) - b + (b - a) / 2 := by
  induction r generalizing a b with
  | nil => simp [tailW]
  | cons c r ih =>
    simp only [tailW, List.map_cons, List.sum_cons]
    rw [ih b c, List.getLast_cons (a := b) (l := c :: r) (by simp)]
    ring

end

/-! ### XSF -/

theorem flatten_xsfLines {α : Type} (l : List α) : (xsfLines l).flatten = l := by
  fun_induction xsfLines l with
  | case1 => rfl
  | case2 a l ih => simp only [List.flatten_cons, ih, List.take_append_drop]

theorem xsfLines_ne_nil {α : Type} (l : List α) : ∀ p ∈ xsfLines l, p ≠ [] := by
  fun_induction xsfLines l with
  | case1 => simp
  | case2 a l ih =>
    intro p hp
    rcases List.mem_cons.1 hp with rfl | hp
    · simp
    · exact ih p hp

theorem xsfRead_flatten {α : Type} (lines : List (List α)) (acc : List α)
    (hne : ∀ p ∈ lines, p ≠ []) (size : Nat) (hs : size = acc.length + lines.flatten.length) :
    xsfRead size lines acc = some (acc ++ lines.flatten) := by
  induction lines generalizing acc with
  | nil => unfold xsfRead; simp at hs; simp [hs]
  | cons l ls ih =>
    unfold xsfRead
    have hl : 0 < l.length := List.length_pos_of_ne_nil (hne l List.mem_cons_self)
    rw [if_neg (by simp at hs; omega)]
    simp only
    rw [ih _ (fun p hp => hne p (List.mem_cons_of_mem _ hp)) (by simp at hs ⊢; omega)]
    simp

theorem xsfRead_lines {α : Type} (l : List α) : xsfRead l.length (xsfLines l) [] = some l := by
  have := xsfRead_flatten (xsfLines l) [] (xsfLines_ne_nil l) l.length
    (by simp [flatten_xsfLines])
  simpa [flatten_xsfLines] using this

theorem length_flatMap_range {α : Type} (n m : Nat) (f : Nat → List α)
    (h : ∀ i, (f i).length = m) : ((List.range n).flatMap f).length = n * m := by
  induction n with
  | zero => simp
  | succ n ih => rw [List.range_succ, List.flatMap_append, List.length_append, ih]; simp [h]; ring

theorem getElem?_flatMap_range {α : Type} (n m : Nat) (f : Nat → List α)
    (h : ∀ i, (f i).length = m) (i j : Nat) (hi : i < n) (hj : j < m) :
    ((List.range n).flatMap f)[i * m + j]? = (f i)[j]? := by
  induction n with
  | zero => omega
  | succ n ih =>
    rw [List.range_succ, List.flatMap_append]
    have hl := length_flatMap_range n m f h
    by_cases hin : i < n
    · rw [List.getElem?_append_left, ih hin]
      rw [hl]
      calc i * m + j < i * m + m := by omega
        _ = (i + 1) * m := by ring
        _ ≤ n * m := Nat.mul_le_mul_right _ hin
    · have : i = n := by omega
      subst this
      rw [List.getElem?_append_right (by rw [hl]; omega), hl]
      simp

theorem length_flatC {α : Type} (n0 n1 n2 : Nat) (data : Nat → Nat → Nat → α) :
    (flatC n0 n1 n2 data).length = n0 * n1 * n2 := by
  unfold flatC
  rw [length_flatMap_range n0 (n1 * n2)]
  · ring
  · intro i; rw [length_flatMap_range n1 n2]; simp

theorem getElem?_flatC {α : Type} (n0 n1 n2 : Nat) (data : Nat → Nat → Nat → α) (i j k : Nat)
    (hi : i < n0) (hj : j < n1) (hk : k < n2) :
    (flatC n0 n1 n2 data)[(i * n1 + j) * n2 + k]? = some (data i j k) := by
  have e : (i * n1 + j) * n2 + k = i * (n1 * n2) + (j * n2 + k) := by ring
  unfold flatC
  rw [e, getElem?_flatMap_range n0 (n1 * n2) _ _ i _ hi, getElem?_flatMap_range n1 n2 _ _ j k hj hk]
  · simp [hk]
  · simp
  · calc j * n2 + k < j * n2 + n2 := by omega
      _ = (j + 1) * n2 := by ring
      _ ≤ n1 * n2 := Nat.mul_le_mul_right _ hj
  · intro i; rw [length_flatMap_range n1 n2]; simp

end Verif.Misc
