import Verif.Misc.Lemmas

/-! # Properties C07-C10, C12-C15 -/

namespace Verif.Misc

/-! ## C07 -/

/-- Specification: the last object of a crash-free history (`none` if nothing was set). -/
def lastSet {α : Type} : Option α → List (BufOp α) → Option α
  | last, [] => last
  | _, .set v :: ops => lastSet (some v) ops
  | last, .get :: ops => lastSet last ops
  | last, .crashInSet _ _ :: ops => lastSet last ops

/-- No crash in this history. -/
def noCrash {α : Type} (ops : List (BufOp α)) : Prop := ∀ v k, BufOp.crashInSet v k ∉ ops

/-- C07 without crashes (missing for the full property: crashes inside `set`, see
`C07_crash_violated`): after any history of `get` and `set` calls, `get` returns `None` if
nothing has been set and the last object otherwise. -/
theorem C07_get_last_partial {α : Type} (P : Pickle α) (ops : List (BufOp α)) (h : noCrash ops) :
    bufGet P (bufRun P none ops) =
      match lastSet none ops with
      | none => .none
      | some v => .obj v := by
  suffices H : ∀ (file : Option (List UInt8)) (last : Option α),
      (file = last.map P.enc) →
      bufRun P file ops = (lastSet last ops).map P.enc by
    rw [H none none rfl]
    cases lastSet none ops with
    | none => rfl
    | some v => simp [bufGet, P.dec_enc]
  intro file last hf
  induction ops generalizing file last with
  | nil => simpa [bufRun, lastSet] using hf
  | cons op ops ih =>
    have h' : noCrash ops := fun v k hm => h v k (List.mem_cons_of_mem _ hm)
    cases op with
    | set v =>
      simp only [bufRun, List.foldl_cons, bufStep, lastSet]
      exact ih h' _ _ (by simp [bufSetUpTo])
    | get =>
      simp only [bufRun, List.foldl_cons, bufStep, lastSet]
      exact ih h' _ _ hf
    | crashInSet v k => exact absurd List.mem_cons_self (h v k)

/-- C07, part that survives crashes: after any history with crashes anywhere, `get` never
returns an object that nobody tried to set. -/
theorem C07_no_fabrication_partial {α : Type} (P : Pickle α) (ops : List (BufOp α)) (v : α)
    (h : bufGet P (bufRun P none ops) = .obj v) :
    BufOp.set v ∈ ops ∨ ∃ k, BufOp.crashInSet v k ∈ ops := by
  suffices H : ∀ (file : Option (List UInt8)),
      bufGet P (bufRun P file ops) = .obj v → (BufOp.set v ∈ ops ∨
        ∃ k, BufOp.crashInSet v k ∈ ops) ∨ bufGet P file = .obj v by
    rcases H none h with h | h
    · exact h
    · simp [bufGet] at h
  clear h
  intro file h
  induction ops generalizing file with
  | nil => exact Or.inr h
  | cons op ops ih =>
    rcases ih _ h with (h1 | ⟨k, h1⟩) | h1
    · exact Or.inl (Or.inl (List.mem_cons_of_mem _ h1))
    · exact Or.inl (Or.inr ⟨k, List.mem_cons_of_mem _ h1⟩)
    · cases op with
      | get => exact Or.inr h1
      | set w =>
        simp [bufStep, bufSetUpTo, bufGet, P.dec_enc] at h1
        exact Or.inl (Or.inl (by rw [h1]; exact List.mem_cons_self))
      | crashInSet w k =>
        by_cases hk : k < (P.enc w).length
        · simp [bufStep, bufSetUpTo, bufGet, P.dec_trunc w k hk] at h1
        · simp [bufStep, bufSetUpTo, bufGet, List.take_of_length_le (Nat.le_of_not_lt hk),
            P.dec_enc] at h1
          exact Or.inl (Or.inr ⟨k, by rw [h1]; exact List.mem_cons_self⟩)

/-- C07 is violated for crashes: for every pickle format, every stored object, every new
object and every crash point before the last byte, the old object is lost and `get` raises
an exception instead of returning the old or the new object. -/
theorem C07_crash_violated {α : Type} (P : Pickle α) (ops : List (BufOp α)) (old new : α) (k : Nat)
    (hk : k < (P.enc new).length) :
    bufGet P (bufRun P none (ops ++ [.set old])) = .obj old ∧
    bufGet P (bufRun P none (ops ++ [.set old, .crashInSet new k])) = .error := by
  constructor
  · simp [bufRun, List.foldl_append, bufStep, bufSetUpTo, bufGet, P.dec_enc]
  · simp [bufRun, List.foldl_append, bufStep, bufSetUpTo, bufGet, P.dec_trunc new k hk]

/-- A toy pickle format (unary numbers with end mark), to show that the assumptions on
pickle are satisfiable and that crash points exist. -/
def unaryPickle : Pickle Nat where
  enc n := List.replicate n 1 ++ [0]
  dec b := if b = List.replicate (b.length - 1) 1 ++ [0] then some (b.length - 1) else none
  dec_enc v := by simp
  dec_trunc v k hk := by
    have : k ≤ v := by simp at hk; omega
    have e : (List.replicate v (1 : UInt8) ++ [0]).take k = List.replicate k 1 := by
      rw [List.take_append_of_le_length (by simpa using this), List.take_replicate]
      congr 1; omega
    simp only [e, List.length_replicate]
    rw [if_neg]
    intro h
    have h0 : (0 : UInt8) ∈ List.replicate k (1 : UInt8) := by rw [h]; simp
    simp [List.mem_replicate] at h0

example : noCrash [.set 3, .get, .set (5 : Nat)] := by intro v k h; simp at h
example : bufGet unaryPickle (bufRun unaryPickle none [.set 3, .get, .set 5]) = .obj 5 := by decide
example : bufGet unaryPickle (bufRun unaryPickle none [.set 3, .crashInSet 5 2]) = .error := by
  decide

/-! ## C08 -/

/-- Specification of the output of a complete bar of the given number and width. -/
def barOutput (id width : Nat) : List Ev :=
  [Ev.title id] ++ List.replicate width (Ev.eq id) ++ [Ev.nl id]

/-- Specification of the output of a bar that is not yet complete. -/
def barOutputSoFar (id count width updates : Nat) : List Ev :=
  [Ev.title id] ++ List.replicate (width * updates / count) (Ev.eq id)

/-- C08 (output). After every history of constructor and update calls, the output
consists of the complete outputs of some bars, each exactly `width` long and none twice,
followed by the partial output of at most one active bar. Outputs never overlap and
silent bars write nothing. -/
theorem C08_output (rank0 : Bool) (ops : List SBOp) :
    let s := sbRun (sbInit rank0) ops
    ∃ done : List (Nat × Nat), (done.map Prod.fst).Nodup ∧
      (∀ i w, (i, w) ∈ done → ∃ b, s.bars[i]? = some (some b) ∧ b.width = w ∧
        b.counter = b.count) ∧
      (∀ i b, s.bars[i]? = some (some b) → b.counter < b.count → s.active = some i) ∧
      match s.active with
      | none => s.out = done.flatMap fun p => barOutput p.1 p.2
      | some i => ∃ b, s.bars[i]? = some (some b) ∧ b.counter < b.count ∧
          s.out = (done.flatMap fun p => barOutput p.1 p.2) ++
            barOutputSoFar i b.count b.width b.counter := by
  intro s
  obtain ⟨done, h, _⟩ := sbinv_run _ _ ops (sbinv_init rank0)
  refine ⟨done, h.nodup, ?_, ?_, ?_⟩
  · intro i w hm; exact (h.fin i w).1 hm
  · intro i b hb hlt; exact (h.prog i b hb).2.2.2 hlt
  · have ho := h.out
    have e : (fun p : Nat × Nat => barOutput p.1 p.2) = fullBlock := by
      funext p; simp [barOutput, fullBlock]
    rw [e]
    change match s.active with | none => _ | some i => _
    have hs : s = sbRun (sbInit rank0) ops := rfl
    rw [← hs] at ho h
    cases ha : s.active with
    | none => simpa [openBlock, ha] using ho
    | some i =>
      obtain ⟨b, hb, hlt⟩ := h.act i ha
      refine ⟨b, hb, hlt, ?_⟩
      rw [ho]; simp [openBlock, ha, hb, barOutputSoFar]

/-- C08 (completion). A bar created on the first process while none is active, with
`count ≥ 1` and sufficient verbosity, has after any further calls seen exactly
`min count updates` updates; it is active until `count` updates and then its complete output
(`width` characters and a newline) is part of the output and no bar of this number is
active, whatever other bars are created or updated in between. -/
theorem C08_complete (ops1 ops2 : List SBOp) (count width verbosity : Nat) (hc : 1 ≤ count)
    (hv : 3 ≤ verbosity) (hidle : (sbRun (sbInit true) ops1).active = none) :
    let id := (sbRun (sbInit true) ops1).bars.length
    let s := sbRun (sbInit true) (ops1 ++ [.new count width verbosity] ++ ops2)
    (countUpd id ops2 < count → s.active = some id ∧
      ∃ pre, s.out = pre ++ barOutputSoFar id count width (countUpd id ops2)) ∧
    (count ≤ countUpd id ops2 → s.active ≠ some id ∧
      ∃ pre post, s.out = pre ++ barOutput id width ++ post) := by
  intro id s
  obtain ⟨d1, h1, _⟩ := sbinv_run _ _ ops1 (sbinv_init true)
  have hnew := sbinv_new _ _ count width verbosity h1
  obtain ⟨done, h, _⟩ := sbinv_run _ _ ops2 hnew
  have hs : s = sbRun (sbNew (sbRun (sbInit true) ops1) count width verbosity) ops2 := by
    simp [s, sbRun, List.foldl_append, sbStep]
  rw [← hs] at h
  have hr0 : ∀ (t : SB) (ops : List SBOp), (sbRun t ops).rank0 = t.rank0 := by
    intro t ops
    induction ops generalizing t with
    | nil => rfl
    | cons op ops ih =>
      simp only [sbRun, List.foldl_cons]
      have := ih (sbStep t op)
      simp only [sbRun] at this
      rw [this]
      cases op with
      | new c w v => simp only [sbStep, sbNew]; split <;> rfl
      | update i =>
        simp only [sbStep, sbUpdate]
        split
        · rfl
        · split
          · split <;> rfl
          · rfl
  have hb0 : barAt (sbNew (sbRun (sbInit true) ops1) count width verbosity) id count width 0 := by
    refine ⟨⟨count, width, 0, 0⟩, ?_, rfl, rfl, by simp⟩
    have : ¬ (count = 0 ∨ ((sbRun (sbInit true) ops1).rank0 = false ∨
        (sbRun (sbInit true) ops1).active ≠ none) ∨ verbosity < 3) := by
      rw [hr0, hidle]; simp [sbInit]; omega
    simp only [sbNew, if_neg this, id]
    simp
  have hb := barAt_run _ _ hnew id count width 0 hb0 ops2
  rw [← hs, Nat.zero_add] at hb
  obtain ⟨b, g1, g2, g3, g4⟩ := hb
  constructor
  · intro hlt
    have hact := (h.prog id b g1).2.2.2 (by omega)
    refine ⟨hact, done.flatMap fullBlock, ?_⟩
    rw [h.out]
    simp only [openBlock, hact, g1, barOutputSoFar]
    rw [g2, g3, g4, Nat.min_eq_right (by omega)]
    simp
  · intro hle
    constructor
    · intro hact
      obtain ⟨b', hb', hlt⟩ := h.act id hact
      rw [g1] at hb'; simp at hb'; subst hb'; omega
    · have hm := (h.fin id width).2 ⟨b, g1, g3, by omega⟩
      obtain ⟨p, q, hpq⟩ := List.append_of_mem hm
      refine ⟨p.flatMap fullBlock, q.flatMap fullBlock ++ openBlock s, ?_⟩
      rw [h.out, hpq]
      simp [fullBlock, barOutput]

/-- C08 (silence). On other processes nothing is ever written. -/
theorem C08_silent_rank (ops : List SBOp) : (sbRun (sbInit false) ops).out = [] := by
  have hr0 : ∀ (t : SB) (ops : List SBOp), t.rank0 = false → t.active = none → t.out = [] →
      (sbRun t ops).out = [] := by
    intro t ops
    induction ops generalizing t with
    | nil => intro _ _ h; exact h
    | cons op ops ih =>
      intro h1 h2 h3
      simp only [sbRun, List.foldl_cons]
      cases op with
      | new c w v =>
        have e : sbStep t (.new c w v) = { t with bars := t.bars ++ [none] } := by
          simp [sbStep, sbNew, h1]
        exact ih _ (by rw [e]; exact h1) (by rw [e]; exact h2) (by rw [e]; exact h3)
      | update i =>
        have e : sbStep t (.update i) = t := by simp [sbStep, sbUpdate, h2]
        exact ih _ (by rw [e]; exact h1) (by rw [e]; exact h2) (by rw [e]; exact h3)
  exact hr0 _ _ rfl rfl rfl

example : (sbRun (sbInit true) [.new 3 5 3, .new 2 4 3, .update 0, .update 1, .update 0,
    .update 0, .update 0, .new 1 2 3]).out =
    barOutput 0 5 ++ barOutputSoFar 2 1 2 0 := by decide
example : (sbRun (sbInit true) [.new 1 5 3, .update 0]).active = none := by decide

/-! ## C09 -/

section
variable {K : Type} [Ring K] [LinearOrder K]

/-- Specification: points `i` and `j` are close in every component. -/
def Close (points : Nat → Nat → K) (d : Nat) (eps : K) (i j : Nat) : Prop :=
  ∀ k, k < d → |points i k - points j k| < eps

/-- Specification: a chain of points among the first `n`, neighbours being close. -/
inductive Linked (points : Nat → Nat → K) (n d : Nat) (eps : K) : Nat → Nat → Prop
  | refl (i : Nat) : Linked points n d eps i i
  | step (i j k : Nat) : Linked points n d eps i j → j < n → k < n → Close points d eps j k →
      Linked points n d eps i k

theorem near_iff (points : Nat → Nat → K) (d : Nat) (eps : K) (i j : Nat) :
    near points d eps i j = true ↔ Close points d eps i j := by
  simp only [near, List.all_eq_true, List.mem_range, decide_eq_true_eq, Close]
  constructor <;> intro h k hk <;> have := h k hk <;> rwa [abs_sub_comm] at this

theorem Linked.trans {points : Nat → Nat → K} {n d : Nat} {eps : K} {i j k : Nat}
    (h1 : Linked points n d eps i j) (h2 : Linked points n d eps j k) :
    Linked points n d eps i k := by
  induction h2 with
  | refl => exact h1
  | step b c _ hb hc hcl ih => exact .step _ _ _ ih hb hc hcl

theorem Linked.symm {points : Nat → Nat → K} {n d : Nat} {eps : K} {i j : Nat}
    (h : Linked points n d eps i j) : Linked points n d eps j i := by
  induction h with
  | refl => exact .refl _
  | step b c _ hb hc hcl ih =>
    refine Linked.trans (.step _ _ _ (.refl c) hc hb ?_) ih
    intro k hk; rw [abs_sub_comm]; exact hcl k hk

theorem labels_iff (points : Nat → Nat → K) (n d : Nat) (eps : K) (x y : Nat) :
    groupLabels points n d eps x = groupLabels points n d eps y ↔ Linked points n d eps x y := by
  have h := foldl_groupStep points d eps (groupPairs n) (fun x => x) (fun _ _ => False)
    (fun x y => by
      constructor
      · intro h; subst h; exact .refl _
      · intro h
        induction h with
        | rel _ _ h => exact h.elim
        | refl => rfl
        | symm _ _ _ ih => exact ih.symm
        | trans _ _ _ _ _ ih1 ih2 => exact ih1.trans ih2) x y
  unfold groupLabels
  rw [h]
  clear h
  constructor
  · intro h
    induction h with
    | rel a b hab =>
      rcases hab with h | ⟨h1, h2⟩
      · exact h.elim
      · rw [mem_groupPairs] at h1
        exact .step _ _ _ (.refl _) (by omega) (by omega) ((near_iff ..).1 h2)
    | refl => exact .refl _
    | symm _ _ _ ih => exact ih.symm
    | trans _ _ _ _ _ ih1 ih2 => exact ih1.trans ih2
  · intro h
    induction h with
    | refl => exact .refl _
    | step b c _ hb hc hcl ih =>
      refine .trans _ _ _ ih ?_
      rcases Nat.lt_trichotomy b c with hlt | heq | hgt
      · exact .rel _ _ (Or.inr ⟨(mem_groupPairs n b c).2 ⟨hlt, hc⟩, (near_iff ..).2 hcl⟩)
      · subst heq; exact .refl _
      · refine .symm _ _ (.rel _ _ (Or.inr ⟨(mem_groupPairs n c b).2 ⟨hgt, hb⟩,
          (near_iff ..).2 ?_⟩))
        intro k hk; rw [abs_sub_comm]; exact hcl k hk

/-- C09. The groups are nonempty, every index is in exactly one group (and no other indices
occur, none twice), and two indices share a group exactly if they are linked by a chain of
close points. -/
theorem C09_group (points : Nat → Nat → K) (n d : Nat) (eps : K) :
    let gs := group points n d eps
    (∀ g ∈ gs, g ≠ [] ∧ g.Nodup) ∧ gs.Nodup ∧
    (∀ i, i < n ↔ ∃ g ∈ gs, i ∈ g) ∧
    (∀ g ∈ gs, ∀ g' ∈ gs, ∀ i, i ∈ g → i ∈ g' → g = g') ∧
    (∀ i j, i < n → j < n → ((∃ g ∈ gs, i ∈ g ∧ j ∈ g) ↔ Linked points n d eps i j)) := by
  intro gs
  have hgs : ∀ g, g ∈ gs ↔ ∃ x, x < n ∧ g = (List.range n).filter
      fun y => groupLabels points n d eps y == groupLabels points n d eps x := by
    intro g
    simp only [gs, group, List.mem_map, List.mem_dedup, List.mem_range]
    constructor
    · rintro ⟨l, ⟨x, hx, rfl⟩, rfl⟩; exact ⟨x, hx, rfl⟩
    · rintro ⟨x, hx, rfl⟩; exact ⟨_, ⟨x, hx, rfl⟩, rfl⟩
  refine ⟨?_, ?_, ?_, ?_, ?_⟩
  · intro g hg
    obtain ⟨x, hx, rfl⟩ := (hgs g).1 hg
    refine ⟨?_, List.nodup_range.filter _⟩
    intro he
    have : x ∈ (List.range n).filter
      fun y => groupLabels points n d eps y == groupLabels points n d eps x := by simp [hx]
    rw [he] at this; simp at this
  · simp only [gs, group]
    apply List.Nodup.map_on _ (List.nodup_dedup _)
    intro a ha b _ hab
    simp only [List.mem_dedup, List.mem_map, List.mem_range] at ha
    obtain ⟨x, hx, rfl⟩ := ha
    have : x ∈ (List.range n).filter fun y => groupLabels points n d eps y == b := by
      rw [← hab]; simp [hx]
    simp at this
    exact this.2
  · intro i
    constructor
    · intro hi
      exact ⟨_, (hgs _).2 ⟨i, hi, rfl⟩, by simp [hi]⟩
    · rintro ⟨g, hg, hi⟩
      obtain ⟨x, hx, rfl⟩ := (hgs g).1 hg
      simp at hi; exact hi.1
  · intro g hg g' hg' i hi hi'
    obtain ⟨x, hx, rfl⟩ := (hgs g).1 hg
    obtain ⟨x', hx', rfl⟩ := (hgs g').1 hg'
    simp at hi hi'
    rw [← hi.2, ← hi'.2]
  · intro i j hi hj
    rw [← labels_iff]
    constructor
    · rintro ⟨g, hg, h1, h2⟩
      obtain ⟨x, hx, rfl⟩ := (hgs g).1 hg
      simp at h1 h2
      rw [h1.2, h2.2]
    · intro h
      refine ⟨_, (hgs _).2 ⟨i, hi, rfl⟩, by simp [hi], ?_⟩
      simp [hj, h]

end

/-- C09, stronger reading of the documentation (`eps` is the maximal distance between points
in the same group) is violated: three points 0, 9, 18 with `eps = 10` form one group. -/
theorem C09_diameter_violated :
    ∃ (points : Nat → Nat → Int) (n d : Nat) (eps : Int) (g : List Nat),
      g ∈ group points n d eps ∧ ∃ i ∈ g, ∃ j ∈ g, ¬ Close points d eps i j :=
  ⟨fun i _ => 9 * i, 3, 1, 10, [0, 1, 2], by decide, 0, by decide, 2, by decide,
    fun h => absurd (h 0 (by decide)) (by decide)⟩

example : group (fun i _ => ([0, 50, 9, 57, 100].getD i 0 : Int)) 5 1 10 =
    [[0, 2], [1, 3], [4]] := by decide

/-! ## C10 -/

section
variable {K : Type} [Field K] [LinearOrder K] [IsStrictOrderedRing K]

/-- C10. For at least two sample points the call succeeds, there is one weight per point,
the weights add up to `x[-1] - x[0]`, the weighted sum of any function values is the sum of
the trapezoids over all intervals, and all weights are nonnegative if the points are sorted.
For fewer points an error is raised. -/
theorem C10_differential (x : List K) :
    (x.length < 2 → differential x = none) ∧
    (∀ hx : 2 ≤ x.length, ∃ w, differential x = some w ∧ w.length = x.length ∧
      w.sum = x[x.length - 1] - x[0] ∧
      (∀ f : List K, f.length = x.length → dot w f = trapezoid x f) ∧
      (x.Pairwise (· ≤ ·) → ∀ a ∈ w, 0 ≤ a)) := by
  constructor
  · intro h
    match x, h with
    | [], _ => rfl
    | [_], _ => rfl
  · intro hx
    match x, hx with
    | a :: b :: r, hx =>
      have hd : differential (a :: b :: r) =
          some (((b - a) :: tailW a b r).map (· / 2)) := by
        have := tailW_eq a b r
        simp only [differential, List.length_cons, Nat.add_sub_cancel, List.drop_succ_cons,
          List.drop_zero, List.cons_append, List.nil_append]
        rw [show r.length + 1 + 1 - 2 = r.length by omega, this]
      have hlen : ∀ (a b : K) (r : List K), (tailW a b r).length = r.length + 1 := by
        intro a b r
        induction r generalizing a b with
        | nil => rfl
        | cons c r ih => simp [tailW, ih]
      have hnn : ∀ (a b : K) (r : List K), (a :: b :: r).Pairwise (· ≤ ·) →
          ∀ c ∈ tailW a b r, 0 ≤ c := by
        intro a b r
        induction r generalizing a b with
        | nil =>
          intro h c hc
          simp [tailW] at hc; subst hc
          simp at h; linarith
        | cons d r ih =>
          intro h c hc
          simp only [tailW, List.mem_cons] at hc
          rcases hc with rfl | hc
          · simp at h; linarith [h.1.2.1]
          · exact ih b d (List.Pairwise.of_cons h) c hc
      refine ⟨_, hd, by simp [hlen], ?_, ?_, ?_⟩
      · simp only [List.map_cons, List.sum_cons, sum_tailW]
        have : (a :: b :: r)[(a :: b :: r).length - 1] = (b :: r).getLast (by simp) := by
          rw [← List.getLast_eq_getElem (l := a :: b :: r) (by simp),
            List.getLast_cons (a := a) (l := b :: r) (by simp)]
        rw [this]
        simp only [List.getElem_cons_zero]
        ring
      · intro f hf
        match f, hf with
        | f0 :: f1 :: fs, hf =>
          simp only [List.map_cons, dot]
          rw [dot_tailW a b r f1 fs (by simpa using hf)]
          simp only [trapezoid]
          ring
      · intro hs c hc
        simp only [List.map_cons, List.mem_cons, List.mem_map] at hc
        rcases hc with rfl | ⟨e, he, rfl⟩
        · simp at hs; have := hs.1.1; apply div_nonneg <;> linarith
        · exact div_nonneg (hnn a b r hs e he) (by norm_num)

end

example : differential [0, 1, 3, (7 : ℚ)] = some [1 / 2, 3 / 2, 3, 2] := by
  norm_num [differential]
example : ([0, 1, 3, (7 : ℚ)]).Pairwise (· ≤ ·) := by norm_num

/-! ## C12 -/

/-- C12 (index). `vector_index` returns the first position of the vector, or `None` if the
vector does not occur. -/
theorem C12_vector_index {α : Type} [DecidableEq α] (vs : List α) (v : α) :
    (vectorIndex vs v = none ↔ v ∉ vs) ∧
    (∀ i, vectorIndex vs v = some i ↔
      vs[i]? = some v ∧ ∀ j, j < i → vs[j]? ≠ some v) := by
  have hidx : ∀ vs : List α, (vs.map fun u => decide (u = v)).idxOf true = vs.idxOf v := by
    intro vs
    induction vs with
    | nil => rfl
    | cons u vs ih =>
      simp only [List.map_cons, List.idxOf_cons, ih]
      by_cases h : u = v
      · simp [h]
      · simp [h, beq_eq_false_iff_ne.2 h]
  have hany : ((vs.map fun u => decide (u = v)).any id) = decide (v ∈ vs) := by
    induction vs with
    | nil => rfl
    | cons u vs ih =>
      simp only [List.map_cons, List.any_cons, ih, List.mem_cons]
      by_cases h : u = v
      · simp [h]
      · simp [h, Ne.symm h]
  have hu : vectorIndex vs v = if v ∈ vs then some (vs.idxOf v) else none := by
    simp only [vectorIndex, hany, hidx, decide_eq_true_eq]
  rw [hu]
  constructor
  · split <;> simp_all
  · intro i
    split
    · rename_i hm
      simp only [Option.some.injEq]
      have h1 : vs[vs.idxOf v]? = some v := List.getElem?_idxOf hm
      have h2 : ∀ j, j < vs.idxOf v → vs[j]? ≠ some v := by
        intro j hj he
        have hl : j < vs.length := lt_trans hj (List.idxOf_lt_length_iff.2 hm)
        rw [List.getElem?_eq_getElem hl] at he
        have := List.not_of_lt_findIdx (xs := vs) (p := fun u => u == v) (i := j) hj
        simp at he this
        exact this he
      constructor
      · rintro rfl; exact ⟨h1, h2⟩
      · rintro ⟨g1, g2⟩
        rcases Nat.lt_trichotomy (vs.idxOf v) i with h | h | h
        · exact absurd h1 (g2 _ h)
        · exact h
        · exact absurd g1 (h2 _ h)
    · rename_i hm
      simp only [reduceCtorEq, false_iff, not_and]
      intro h
      exact absurd (List.mem_of_getElem? h) hm

/-- C12 (block). The lookup returns the block stored with the first matching lattice vector
and zero if there is none; for duplicate-free lattice vectors this is the sum of all blocks
stored with that vector, i.e., the coefficient of the vector in any Fourier sum. -/
theorem C12_lookup {α M : Type} [DecidableEq α] [AddCommMonoid M] (R : List α) (data : List M)
    (hl : data.length = R.length) (v : α) :
    (v ∉ R → lookupBlock R data v = 0) ∧
    (∀ i, vectorIndex R v = some i → data[i]? = some (lookupBlock R data v)) ∧
    (R.Nodup → lookupBlock R data v =
      ((R.zip data).map fun p => if p.1 = v then p.2 else 0).sum) := by
  have hspec := C12_vector_index R v
  refine ⟨?_, ?_, ?_⟩
  · intro h; simp [lookupBlock, hspec.1.2 h]
  · intro i hi
    have h1 := ((hspec.2 i).1 hi).1
    have hlt : i < R.length := by
      by_contra hc; rw [List.getElem?_eq_none (by omega)] at h1; simp at h1
    simp only [lookupBlock, hi]
    rw [List.getD_eq_getElem?_getD, List.getElem?_eq_getElem (by omega)]; rfl
  · clear hspec
    intro hn
    induction R generalizing data with
    | nil => simp [lookupBlock, vectorIndex]
    | cons u R ih =>
      cases data with
      | nil => simp at hl
      | cons d data =>
        have hn' := List.nodup_cons.1 hn
        have hrec := ih data (by simpa using hl) hn'.2
        simp only [List.zip_cons_cons, List.map_cons, List.sum_cons]
        by_cases h : u = v
        · subst h
          have hz : lookupBlock R data u = 0 := by
            simp [lookupBlock, (C12_vector_index R u).1.2 hn'.1]
          rw [← hrec, hz]
          simp [lookupBlock, vectorIndex]
        · rw [if_neg h, zero_add, ← hrec]
          have e : vectorIndex (u :: R) v = (vectorIndex R v).map (· + 1) := by
            simp only [vectorIndex, List.map_cons, List.any_cons, h, decide_false, id,
              Bool.false_or, List.idxOf_cons]
            split <;> simp
          simp only [lookupBlock, e]
          cases vectorIndex R v <;> simp

example : vectorIndex [(0, 1), (2, 3), (4, 5), (2, 3)] (2, 3) = some 1 := by decide
example : lookupBlock [(0, 1), (2, 3)] [10, 20] (2, 3) = 20 := by decide
example : ([(0, 1), (2, 3)] : List (Nat × Nat)).Nodup := by decide

/-! ## C13 -/

section
variable {K : Type} [Field K] [DecidableEq K] [CharZero K]

/-- C13, formula (missing for the full property: the arguments of the call are ignored, see
`C13_call_violated`). If the coordinates reach the formula (six command-line arguments) and
lie on the parabola `a x² + b x + c`, the result is its extremum `-b / (2 a)` for `a ≠ 0`
and "no extremum" for `a = 0`. -/
theorem C13_extremum_partial (a b c x1 x2 x3 : K) (args : List K) (h12 : x1 ≠ x2) (h23 : x2 ≠ x3)
    (h31 : x3 ≠ x1) :
    minimum [x1, x2, x3, a * x1 ^ 2 + b * x1 + c, a * x2 ^ 2 + b * x2 + c,
        a * x3 ^ 2 + b * x3 + c] args =
      if a = 0 then .noExtremum else .value (-b / (2 * a)) := by
  have h1 := sub_ne_zero.2 h12
  have h2 := sub_ne_zero.2 h23
  have h3 := sub_ne_zero.2 h31
  have hden : x1 * 2 * ((a * x2 ^ 2 + b * x2 + c) - (a * x3 ^ 2 + b * x3 + c)) +
      x2 * 2 * ((a * x3 ^ 2 + b * x3 + c) - (a * x1 ^ 2 + b * x1 + c)) +
      x3 * 2 * ((a * x1 ^ 2 + b * x1 + c) - (a * x2 ^ 2 + b * x2 + c)) =
      2 * a * ((x1 - x2) * (x2 - x3) * (x3 - x1)) := by ring
  have henum : x1 ^ 2 * ((a * x2 ^ 2 + b * x2 + c) - (a * x3 ^ 2 + b * x3 + c)) +
      x2 ^ 2 * ((a * x3 ^ 2 + b * x3 + c) - (a * x1 ^ 2 + b * x1 + c)) +
      x3 ^ 2 * ((a * x1 ^ 2 + b * x1 + c) - (a * x2 ^ 2 + b * x2 + c)) =
      -b * ((x1 - x2) * (x2 - x3) * (x3 - x1)) := by ring
  have hv : (x1 - x2) * (x2 - x3) * (x3 - x1) ≠ 0 := mul_ne_zero (mul_ne_zero h1 h2) h3
  simp only [minimum, minimumFormula]
  rw [hden, henum]
  by_cases ha : a = 0
  · simp [ha]
  · rw [if_pos (mul_ne_zero (mul_ne_zero (by norm_num) ha) hv), if_neg ha,
      mul_div_mul_right _ _ hv]

omit [CharZero K] in
/-- C13 is violated for calls from Python: whatever six coordinates are passed, the call
ends the program unless six command-line arguments are present, in which case
the arguments of the call are ignored. -/
theorem C13_call_violated (argv args : List K) :
    (argv.length ≠ 6 → minimum argv args = .systemExit) ∧
    (∀ args', argv.length = 6 → minimum argv args = minimum argv args') := by
  constructor
  · intro h
    unfold minimum
    match argv, h with
    | [], _ => rfl
    | [_], _ => rfl
    | [_, _], _ => rfl
    | [_, _, _], _ => rfl
    | [_, _, _, _], _ => rfl
    | [_, _, _, _, _], _ => rfl
    | [_, _, _, _, _, _], h => exact absurd rfl h
    | _ :: _ :: _ :: _ :: _ :: _ :: _ :: _, _ => rfl
  · intro args' h
    match argv, h with
    | [_, _, _, _, _, _], _ => rfl

end

example : minimum [] [0, 1, 2, 1, 0, (1 : ℚ)] = .systemExit := by decide
example : minimumFormula 0 1 2 1 0 (1 : ℚ) = .value 1 := by norm_num [minimumFormula]

/-! ## C14 -/

/-- C14 is violated: a 2 x 2 x 1 grid comes back transposed. -/
theorem C14_roundtrip_violated :
    ∃ (n0 n1 n2 : Nat) (data : Nat → Nat → Nat → Nat) (i j k : Nat),
      i < n0 ∧ j < n1 ∧ k < n2 ∧ xsfRoundTrip n0 n1 n2 data i j k ≠ some (data i j k) := by
  refine ⟨2, 2, 1, fun i j _ => 10 * i + j, 0, 1, 0, by decide, by decide, by decide, ?_⟩
  have h := xsfRead_lines (flatC 2 2 1 fun i j _ => 10 * i + j)
  rw [length_flatC] at h
  simp only [xsfRoundTrip, h]
  decide

/-- C14, what holds: reading never fails and returns at position `(i, j, k)` the value
written at the position with the reversed index order; it returns the data themselves for
grids with at most one extended direction. Missing for the full property: grids extended in
two or more directions (`C14_roundtrip_violated`). -/
theorem C14_roundtrip_partial {α : Type} (n0 n1 n2 : Nat) (data : Nat → Nat → Nat → α)
    (i j k : Nat) (hi : i < n0) (hj : j < n1) (hk : k < n2) :
    (∀ i' j' k', i' < n0 → j' < n1 → k' < n2 →
      (i' * n1 + j') * n2 + k' = (k * n1 + j) * n0 + i →
      xsfRoundTrip n0 n1 n2 data i j k = some (data i' j' k')) ∧
    ((n0 = 1 ∧ n1 = 1) ∨ (n1 = 1 ∧ n2 = 1) ∨ (n0 = 1 ∧ n2 = 1) →
      xsfRoundTrip n0 n1 n2 data i j k = some (data i j k)) := by
  have hread := xsfRead_lines (flatC n0 n1 n2 data)
  rw [length_flatC] at hread
  have hmain : ∀ i' j' k', i' < n0 → j' < n1 → k' < n2 →
      (i' * n1 + j') * n2 + k' = (k * n1 + j) * n0 + i →
      xsfRoundTrip n0 n1 n2 data i j k = some (data i' j' k') := by
    intro i' j' k' hi' hj' hk' he
    simp only [xsfRoundTrip, hread, xsfGrid]
    rw [← he, getElem?_flatC n0 n1 n2 data i' j' k' hi' hj' hk']
  refine ⟨hmain, ?_⟩
  rintro (⟨rfl, rfl⟩ | ⟨rfl, rfl⟩ | ⟨rfl, rfl⟩)
  all_goals
    apply hmain i j k hi hj hk
    simp only [Nat.lt_one_iff] at hi hj hk
    subst_vars
    simp

/-- C14, the reading side alone follows the XSF format (first index fastest): a file whose
numbers are listed in that order is read to the right positions. -/
theorem C14_read_fortran_partial {α : Type} (n0 n1 n2 : Nat) (data : Nat → Nat → Nat → α)
    (i j k : Nat) (hi : i < n0) (hj : j < n1) (hk : k < n2) :
    xsfGrid n0 n1 (flatC n2 n1 n0 fun k j i => data i j k) i j k = some (data i j k) := by
  unfold xsfGrid
  rw [getElem?_flatC n2 n1 n0 _ k j i hk hj hi]

example : xsfRoundTrip 3 1 1 (fun i _ _ => i) 2 0 0 = some 2 :=
  (C14_roundtrip_partial 3 1 1 (fun i _ _ => i) 2 0 0 (by decide) (by decide) (by decide)).2
    (Or.inr (Or.inl ⟨rfl, rfl⟩))

/-! ## C15 -/

/-- C15 is violated: for every file there is a content of the uninitialised memory for which
the returned origin differs from the one in the file, on every process; the returned origin
does not depend on the file at all. -/
theorem C15_origin_violated (header header' : List Nat) (rank : Nat) :
    (∃ garbage, readCubeOrigin header garbage rank ≠ header) ∧
    (∀ garbage, readCubeOrigin header garbage rank = readCubeOrigin header' garbage rank) := by
  refine ⟨⟨fun _ => header ++ [0], ?_⟩, fun _ => rfl⟩
  simp [readCubeOrigin]

end Verif.Misc
