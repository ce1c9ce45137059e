import Mathlib.Algebra.BigOperators.Group.Finset.Basic
import Mathlib.Algebra.Order.BigOperators.Group.Finset
import Mathlib.Data.List.GetD

/-!
# Processes that exchange data

Like `Verif.MPI.Coll`, but operations have contributions of all members (`Reduce`, `Allreduce`, `Gatherv`, ...). A process first hands over its
contribution and later obtains the result. Whose contributions it waits for is a parameter; the MPI standard guarantees no more than what is
needed for the result.
-/

namespace Verif.MPI.Exch

/-- Programs of processes. `C`: communicators; `K`: kinds of operations; `V`: values; `R`: results. -/
inductive Prog (C K V R : Type) where
  | ret (a : R)
  | op (c : C) (κ : K) (v : V) (k : V → Prog C K V R)

/-- One program after the other. -/
def Prog.bind {C K V R S : Type} : Prog C K V R → (R → Prog C K V S) → Prog C K V S
  | .ret a, f => f a
  | .op c κ v k, f => .op c κ v fun x => (k x).bind f

/-- Members of communicators in the order of their ranks; what the member of rank `i` receives, given the contributions in the order of ranks;
does rank `i` wait for the contribution of rank `j`? -/
structure Sem (C K V : Type) where
  mem : C → List Nat
  deliver : K → List V → Nat → V
  wait : K → Nat → Nat → Bool

/-- Processes wait at least for the contributions on which their results depend. -/
def Sem.Sound {C K V : Type} (M : Sem C K V) : Prop :=
  ∀ κ (l l' : List V) i, l.length = l'.length → (∀ j, (M.wait κ i j = true ∨ j = i) → l[j]? = l'[j]?) → M.deliver κ l i = M.deliver κ l' i

/-- State of all processes: remaining programs, number of operations passed, contributions handed over. -/
structure State (C K V R : Type) where
  prog : Nat → Prog C K V R
  cnt : C → Nat → Nat
  sent : C → Nat → List (K × V)

section
variable {C K V R : Type} [DecidableEq C] [DecidableEq K]

/-- Can process `r` receive the result of its current operation on `c`? -/
def ready (M : Sem C K V) (s : State C K V R) (c : C) (κ : K) (r : Nat) : Bool :=
  (M.mem c).all fun q => !(M.wait κ ((M.mem c).idxOf r) ((M.mem c).idxOf q)) ||
    decide (((s.sent c q)[s.cnt c r]?).map Prod.fst = some κ)

/-- Contributions as seen by process `r`; those that have not arrived are replaced by `v`. -/
def values (M : Sem C K V) (s : State C K V R) (c : C) (r : Nat) (v : V) : List V :=
  (M.mem c).map fun q => (((s.sent c q)[s.cnt c r]?).map Prod.snd).getD v

/-- One step of process `r` (no change if it has to wait or is done). -/
def step (n : Nat) (M : Sem C K V) (s : State C K V R) (r : Nat) : State C K V R :=
  if r < n then
    match s.prog r with
    | .ret _ => s
    | .op c κ v k =>
      if r ∈ M.mem c then
        if (s.sent c r).length ≤ s.cnt c r then
          { s with sent := fun c' r' => if c' = c ∧ r' = r then s.sent c r ++ [(κ, v)] else s.sent c' r' }
        else if ready M s c κ r then
          { s with prog := fun r' => if r' = r then k (M.deliver κ (values M s c r v) ((M.mem c).idxOf r)) else s.prog r',
                   cnt := fun c' r' => if c' = c ∧ r' = r then s.cnt c r + 1 else s.cnt c' r' }
        else s
      else s
  else s

/-- Begin of the execution. -/
def init (p : Nat → Prog C K V R) : State C K V R := { prog := p, cnt := fun _ _ => 0, sent := fun _ _ => [] }

/-- Execution with given schedule. -/
def run (n : Nat) (M : Sem C K V) (s : State C K V R) (sched : List Nat) : State C K V R := sched.foldl (step n M) s

/-! ## Programs that agree on a sequence of operations -/

/-- An operation with all contributions. -/
abbrev Entry (C K V : Type) := C × K × (Nat → V)

/-- Program of process `r` takes part in exactly the operations of `T` on communicators it belongs to, in this order, with its contribution given in `T`,
and then returns `a`; `l`: number of these operations. -/
inductive Follows (M : Sem C K V) (r : Nat) : Prog C K V R → List (Entry C K V) → R → Nat → Prop
  | ret (a : R) : Follows M r (.ret a) [] a 0
  | skip {c κ v p T a l} : r ∉ M.mem c → Follows M r p T a l → Follows M r p ((c, κ, v) :: T) a l
  | op {c κ v x k T a l} : r ∈ M.mem c → x = v r → Follows M r (k (M.deliver κ ((M.mem c).map v) ((M.mem c).idxOf r))) T a l →
      Follows M r (.op c κ x k) ((c, κ, v) :: T) a (l + 1)

omit [DecidableEq C] [DecidableEq K] in
theorem Follows.bind {S : Type} {M : Sem C K V} {r : Nat} {p : Prog C K V R} {T T' : List (Entry C K V)} {a : R} {b : S} {l l' : Nat}
    {f : R → Prog C K V S} (h : Follows M r p T a l) (hf : Follows M r (f a) T' b l') : Follows M r (p.bind f) (T ++ T') b (l + l') := by
  induction h with
  | ret a => simpa [Prog.bind] using hf
  | skip hm _ ih => exact Follows.skip hm (ih hf)
  | @op c κ v x k T a l hm hx _ ih =>
    have := Follows.op hm hx (k := fun x => (k x).bind f) (κ := κ) (ih hf)
    rw [show l + 1 + l' = l + l' + 1 by omega]
    exact this

/-- Operations on communicator `c`. -/
def entries (T : List (Entry C K V)) (c : C) : List (K × (Nat → V)) := (T.filter fun e => decide (e.1 = c)).map Prod.snd

omit [DecidableEq K] in
theorem entries_append (T T' : List (Entry C K V)) (c : C) : entries (T ++ T') c = entries T c ++ entries T' c := by
  simp [entries]

omit [DecidableEq K] in
theorem entries_none (M : Sem C K V) (r : Nat) (c : C) (hc : r ∈ M.mem c) (T : List (Entry C K V)) (hT : ∀ e ∈ T, r ∉ M.mem e.1) :
    entries T c = [] := by
  simp only [entries, List.map_eq_nil_iff, List.filter_eq_nil_iff, decide_eq_true_eq]
  rintro e he rfl
  exact hT e he hc

omit [DecidableEq C] [DecidableEq K] in
/-- What a process that follows `T` does next. -/
theorem Follows.cases {M : Sem C K V} {r : Nat} {p : Prog C K V R} {T : List (Entry C K V)} {a : R} {len : Nat} (h : Follows M r p T a len) :
    (p = .ret a ∧ (∀ e ∈ T, r ∉ M.mem e.1) ∧ len = 0) ∨
      (∃ S c κ v k T' l, p = .op c κ (v r) k ∧ T = S ++ (c, κ, v) :: T' ∧ (∀ e ∈ S, r ∉ M.mem e.1) ∧ r ∈ M.mem c ∧
        Follows M r (k (M.deliver κ ((M.mem c).map v) ((M.mem c).idxOf r))) T' a l ∧ len = l + 1) := by
  induction h with
  | ret a => exact Or.inl ⟨rfl, by simp, rfl⟩
  | @skip c κ v p T a len hm h ih =>
    rcases ih with ⟨h1, h2, h3⟩ | ⟨S, c', κ', v', k, T', l, h1, h2, h3, h4, h5, h6⟩
    · exact Or.inl ⟨h1, by simpa [hm] using h2, h3⟩
    · exact Or.inr ⟨(c, κ, v) :: S, c', κ', v', k, T', l, h1, by rw [h2]; rfl, by simpa [hm] using h3, h4, h5, h6⟩
  | @op c κ v x k T a l hm hx h _ =>
    subst hx
    exact Or.inr ⟨[], c, κ, v, k, T, l, rfl, rfl, by simp, hm, h, rfl⟩

/-! ## Invariant -/

/-- Every process has passed a part `past r` of `T` and follows the rest. -/
structure Inv (n : Nat) (M : Sem C K V) (T : List (Entry C K V)) (res : Nat → R) (s : State C K V R) (past rest : Nat → List (Entry C K V))
    (len : Nat → Nat) : Prop where
  split : ∀ r, r < n → past r ++ rest r = T
  follows : ∀ r, r < n → Follows M r (s.prog r) (rest r) (res r) (len r)
  cnt : ∀ r c, r < n → r ∈ M.mem c → s.cnt c r = (entries (past r) c).length
  sent : ∀ r c, r < n → r ∈ M.mem c → s.sent c r <+: (entries T c).map fun e => (e.1, e.2 r)
  le : ∀ r c, r < n → r ∈ M.mem c → s.cnt c r ≤ (s.sent c r).length

omit [DecidableEq K] in
theorem Inv.init {n : Nat} {M : Sem C K V} {T : List (Entry C K V)} {res : Nat → R} {p : Nat → Prog C K V R} {len : Nat → Nat}
    (h : ∀ r, r < n → Follows M r (p r) T (res r) (len r)) : Inv n M T res (init p) (fun _ => []) (fun _ => T) len :=
  ⟨fun _ _ => rfl, h, fun _ _ _ _ => rfl, fun _ _ _ _ => List.nil_prefix, fun _ _ _ _ => le_rfl⟩

/-- Has process `r` handed over its contribution to the current operation? -/
def handed (s : State C K V R) (r : Nat) : Bool :=
  match s.prog r with
  | .ret _ => false
  | .op c _ _ _ => decide (s.cnt c r < (s.sent c r).length)

/-- Number of steps left. -/
def left (n : Nat) (s : State C K V R) (len : Nat → Nat) : Nat :=
  ∑ r ∈ Finset.range n, (2 * len r + if handed s r then 0 else 1)

theorem sum_less (n r : Nat) (hr : r < n) (f g : Nat → Nat) (h : ∀ q, q ≠ r → g q = f q) (hr' : g r + 1 ≤ f r) :
    (∑ q ∈ Finset.range n, g q) + 1 ≤ ∑ q ∈ Finset.range n, f q := by
  have hm := Finset.mem_range.2 hr
  rw [← Finset.add_sum_erase _ _ hm, ← Finset.add_sum_erase (Finset.range n) f hm]
  have : ∑ q ∈ (Finset.range n).erase r, g q = ∑ q ∈ (Finset.range n).erase r, f q :=
    Finset.sum_congr rfl fun q hq => h q (Finset.ne_of_mem_erase hq)
  omega

omit [DecidableEq K] in
/-- Current operation of a process in the sequence of operations on its communicator. -/
theorem Inv.current {n : Nat} {M : Sem C K V} {T : List (Entry C K V)} {res : Nat → R} {s : State C K V R}
    {past rest : Nat → List (Entry C K V)} {len : Nat → Nat} (h : Inv n M T res s past rest len) (r : Nat) (hr : r < n) (c : C) (κ : K) (v : Nat → V)
    (S T' : List (Entry C K V)) (hrest : rest r = S ++ (c, κ, v) :: T') (hS : ∀ e ∈ S, r ∉ M.mem e.1) (hc : r ∈ M.mem c) :
    (entries T c)[s.cnt c r]? = some (κ, v) := by
  rw [h.cnt r c hr hc, ← h.split r hr, hrest, entries_append, entries_append, entries_none M r c hc S hS]
  simp [entries]

/-- A step either does not change the state or brings a process closer to its end. -/
theorem Inv.step {n : Nat} {M : Sem C K V} (hM : M.Sound) (hmem : ∀ c, ∀ q ∈ M.mem c, q < n) (hnd : ∀ c, (M.mem c).Nodup) {T : List (Entry C K V)} {res : Nat → R} {s : State C K V R}
    {past rest : Nat → List (Entry C K V)} {len : Nat → Nat} (h : Inv n M T res s past rest len) (r : Nat) :
    Exch.step n M s r = s ∨ ∃ past' rest' len', Inv n M T res (Exch.step n M s r) past' rest' len' ∧
      left n (Exch.step n M s r) len' + 1 ≤ left n s len := by
  by_cases hr : r < n
  swap
  · left
    simp [Exch.step, hr]
  rcases (h.follows r hr).cases with ⟨h1, -, -⟩ | ⟨S, c, κ, v, k, T', l, h1, h2, h3, h4, h5, h6⟩
  · left
    simp [Exch.step, hr, h1]
  have hcur := h.current r hr c κ v S T' h2 h3 h4
  by_cases hlen : (s.sent c r).length ≤ s.cnt c r
  · -- hand over
    right
    have hst : Exch.step n M s r = { s with sent := fun c' r' => if c' = c ∧ r' = r then s.sent c r ++ [(κ, v r)] else s.sent c' r' } := by
      simp only [Exch.step, hr, h1, h4, hlen, if_true]
    rw [hst]
    refine ⟨past, rest, len, ⟨h.split, h.follows, h.cnt, ?_, ?_⟩, ?_⟩
    · intro q c' hq hc'
      by_cases e : c' = c ∧ q = r
      · obtain ⟨rfl, rfl⟩ := e
        simp only [and_self, if_true]
        have heq : s.cnt c' q = (s.sent c' q).length := le_antisymm (h.le q c' hq hc') hlen
        obtain ⟨U, hU⟩ := h.sent q c' hq hc'
        have hget : ((entries T c').map fun e => (e.1, e.2 q))[(s.sent c' q).length]? = some (κ, v q) := by
          rw [← heq, List.getElem?_map, hcur]
          rfl
        rw [← hU] at hget ⊢
        rw [List.getElem?_append_right le_rfl] at hget
        cases U with
        | nil => simp at hget
        | cons u U =>
          simp only [Nat.sub_self, List.getElem?_cons_zero, Option.some.injEq] at hget
          subst hget
          exact ⟨U, by simp⟩
      · simp only [e, if_false]
        exact h.sent q c' hq hc'
    · intro q c' hq hc'
      by_cases e : c' = c ∧ q = r
      · obtain ⟨rfl, rfl⟩ := e
        simp only [and_self, if_true, List.length_append, List.length_singleton]
        have := h.le q c' hq hc'
        omega
      · simp only [e, if_false]
        exact h.le q c' hq hc'
    · refine sum_less n r hr _ _ (fun q hq => ?_) ?_
      · have : handed { s with sent := fun c' r' => if c' = c ∧ r' = r then s.sent c r ++ [(κ, v r)] else s.sent c' r' } q = handed s q := by
          unfold handed
          show (match s.prog q with
            | .ret _ => false
            | .op c' _ _ _ => decide (s.cnt c' q < (if c' = c ∧ q = r then s.sent c r ++ [(κ, v r)] else s.sent c' q).length)) = _
          rcases s.prog q with a | ⟨c', κ', v', k'⟩ <;> simp [hq]
        rw [this]
      · have hle := h.le r c hr h4
        have h7 : ¬ s.cnt c r < (s.sent c r).length := by omega
        have h8 : s.cnt c r < (s.sent c r).length + 1 := by omega
        simp [handed, h1, h7, h8]
  · by_cases hrd : ready M s c κ r = true
    swap
    · left
      simp only [Exch.step, hr, h1, h4, hlen, if_true, if_false, hrd]
      simp
    right
    have hval : M.deliver κ (values M s c r (v r)) ((M.mem c).idxOf r) = M.deliver κ ((M.mem c).map v) ((M.mem c).idxOf r) := by
      apply hM
      · simp [values]
      · intro j hj
        simp only [values, List.getElem?_map]
        cases hq : (M.mem c)[j]? with
        | none => rfl
        | some q =>
          simp only [Option.map_some, Option.some.injEq]
          obtain ⟨hjl, hjq⟩ := List.getElem?_eq_some_iff.1 hq
          have hqm : q ∈ M.mem c := by
            rw [← hjq]
            exact List.getElem_mem _
          have hqn := hmem c q hqm
          -- either the contribution has arrived or it is the default
          have hget : ∀ w, (s.sent c q)[s.cnt c r]? = some w → w = (κ, v q) := by
            intro w hw
            obtain ⟨U, hU⟩ := h.sent q c hqn hqm
            have h9 : ((entries T c).map fun e => (e.1, e.2 q))[s.cnt c r]? = some w := by
              rw [← hU, List.getElem?_append_left]
              · exact hw
              · exact (List.getElem?_eq_some_iff.1 hw).1
            rw [List.getElem?_map, hcur] at h9
            simpa using h9.symm
          cases hw : (s.sent c q)[s.cnt c r]? with
          | some w =>
            rw [hget w hw]
            rfl
          | none =>
            exfalso
            rcases hj with hj | hj
            · have h9 := List.all_eq_true.1 hrd q hqm
              rw [← hjq, (hnd c).idxOf_getElem j hjl, hj] at h9
              simp only [Bool.not_true, Bool.false_or, decide_eq_true_eq] at h9
              rw [hjq, hw] at h9
              simp at h9
            · have : q = r := by
                rw [← hjq]
                subst hj
                exact List.getElem_idxOf hjl
              subst this
              rw [List.getElem?_eq_none_iff] at hw
              exact hlen hw
    have hst : Exch.step n M s r = { s with
        prog := fun r' => if r' = r then k (M.deliver κ ((M.mem c).map v) ((M.mem c).idxOf r)) else s.prog r',
        cnt := fun c' r' => if c' = c ∧ r' = r then s.cnt c r + 1 else s.cnt c' r' } := by
      simp only [Exch.step, hr, h1, h4, hlen, if_true, if_false, hrd, hval]
    rw [hst]
    refine ⟨fun q => if q = r then past r ++ (S ++ [(c, κ, v)]) else past q, fun q => if q = r then T' else rest q,
      fun q => if q = r then l else len q, ⟨?_, ?_, ?_, h.sent, ?_⟩, ?_⟩
    · intro q hq
      by_cases e : q = r
      · subst e
        simp only [if_pos]
        rw [← h.split q hq, h2]
        simp
      · simp only [e, if_false]
        exact h.split q hq
    · intro q hq
      by_cases e : q = r
      · subst e
        simpa using h5
      · simpa [e] using h.follows q hq
    · intro q c' hq hc'
      by_cases e : q = r
      · subst e
        simp only [if_pos, and_true]
        rw [entries_append, entries_append, entries_none M q c' hc' S h3]
        by_cases e' : c' = c
        · subst e'
          simp [entries, h.cnt q c' hq hc']
        · have e'' : ¬ c = c' := fun h => e' h.symm
          simp [entries, e', e'', h.cnt q c' hq hc']
      · simpa [e] using h.cnt q c' hq hc'
    · intro q c' hq hc'
      by_cases e : c' = c ∧ q = r
      · obtain ⟨rfl, rfl⟩ := e
        simp only [and_self, if_true]
        omega
      · simp only [e, if_false]
        exact h.le q c' hq hc'
    · refine sum_less n r hr _ _ (fun q hq => ?_) ?_
      · have : handed { s with
            prog := fun r' => if r' = r then k (M.deliver κ ((M.mem c).map v) ((M.mem c).idxOf r)) else s.prog r',
            cnt := fun c' r' => if c' = c ∧ r' = r then s.cnt c r + 1 else s.cnt c' r' } q = handed s q := by
          unfold handed
          simp only [hq, if_false, and_false]
        simp only [hq, if_false]
        rw [this]
      · simp only [if_true, h6]
        split_ifs <;> omega

theorem Inv.run {n : Nat} {M : Sem C K V} (hM : M.Sound) (hmem : ∀ c, ∀ q ∈ M.mem c, q < n) (hnd : ∀ c, (M.mem c).Nodup) {T : List (Entry C K V)}
    {res : Nat → R} (sched : List Nat) {s : State C K V R} {past rest : Nat → List (Entry C K V)} {len : Nat → Nat} (h : Inv n M T res s past rest len) :
    ∃ past' rest' len', Inv n M T res (Exch.run n M s sched) past' rest' len' ∧ left n (Exch.run n M s sched) len' ≤ left n s len := by
  induction sched generalizing s past rest len with
  | nil => exact ⟨_, _, _, h, le_rfl⟩
  | cons r sched ih =>
    rcases h.step hM hmem hnd r with h' | ⟨p', r', m', h', hs⟩
    · have := ih h
      simpa [Exch.run, h'] using this
    · obtain ⟨p'', r'', m'', h'', hs'⟩ := ih h'
      exact ⟨p'', r'', m'', h'', by
        have : Exch.run n M s (r :: sched) = Exch.run n M (Exch.step n M s r) sched := rfl
        rw [this]
        omega⟩

/-! ## No deadlock -/

/-- All processes have returned. -/
def AllDone (n : Nat) (res : Nat → R) (s : State C K V R) : Prop := ∀ r, r < n → s.prog r = .ret (res r)

omit [DecidableEq C] [DecidableEq K] in
/-- The first operation some process still has to take part in. -/
theorem exists_first (n : Nat) (M : Sem C K V) (T : List (Entry C K V)) (past rest : Nat → List (Entry C K V))
    (h : ∀ r, r < n → past r ++ rest r = T) (hex : ∃ r, r < n ∧ ∃ e ∈ rest r, r ∈ M.mem e.1) :
    ∃ P e Q, T = P ++ e :: Q ∧ (∃ r, r < n ∧ r ∈ M.mem e.1 ∧ (past r).length ≤ P.length) ∧
      ∀ r, r < n → (past r).length ≤ P.length → ∃ S, P = past r ++ S ∧ rest r = S ++ e :: Q ∧ ∀ e' ∈ S, r ∉ M.mem e'.1 := by
  have hidx : ∃ i, ∃ r, r < n ∧ (past r).length ≤ i ∧ ∃ hi : i < T.length, r ∈ M.mem (T[i]).1 := by
    obtain ⟨r, hr, e, he, hm⟩ := hex
    obtain ⟨j, hj, rfl⟩ := List.mem_iff_getElem.1 he
    have hlen : (past r ++ rest r).length = T.length := by rw [h r hr]
    simp only [List.length_append] at hlen
    have hlt : (past r).length + j < T.length := by omega
    refine ⟨(past r).length + j, r, hr, by omega, hlt, ?_⟩
    have : T[(past r).length + j] = (rest r)[j] := by
      simp only [← h r hr]
      rw [List.getElem_append_right (by omega)]
      simp
    rw [this]
    exact hm
  classical
  obtain ⟨i, hi, hmin⟩ : ∃ i, (∃ r, r < n ∧ (past r).length ≤ i ∧ ∃ hi : i < T.length, r ∈ M.mem (T[i]).1) ∧
      ∀ j < i, ¬ ∃ r, r < n ∧ (past r).length ≤ j ∧ ∃ hj : j < T.length, r ∈ M.mem (T[j]).1 :=
    ⟨Nat.find hidx, Nat.find_spec hidx, fun j hj => Nat.find_min hidx hj⟩
  obtain ⟨r0, hr0, hle0, hlt, hm0⟩ := hi
  have hPlen : (T.take i).length = i := by simp; omega
  refine ⟨T.take i, T[i], T.drop (i + 1), ?_, ⟨r0, hr0, hm0, by omega⟩, ?_⟩
  · rw [← List.drop_eq_getElem_cons hlt, List.take_append_drop]
  · intro r hr hle
    rw [hPlen] at hle
    have e1 : past r = T.take (past r).length := by
      conv_rhs => rw [← h r hr]
      simp
    have e2 : rest r = T.drop (past r).length := by
      conv_rhs => rw [← h r hr]
      simp
    refine ⟨(T.take i).drop (past r).length, ?_, ?_, ?_⟩
    · have : (T.take i).take (past r).length = past r := by
        rw [List.take_take, min_eq_left hle]
        exact e1.symm
      conv_lhs => rw [← List.take_append_drop (past r).length (T.take i)]
      rw [this]
    · rw [e2]
      conv_lhs => rw [← List.take_append_drop i T]
      rw [List.drop_append_of_le_length (by omega), List.drop_eq_getElem_cons hlt]
    · intro e' he' hcon
      obtain ⟨j, hj, rfl⟩ := List.mem_iff_getElem.1 he'
      simp only [List.length_drop, hPlen] at hj
      have := hmin ((past r).length + j) (by omega)
      refine this ⟨r, hr, by omega, by omega, ?_⟩
      have hgt : ((T.take i).drop (past r).length)[j] = T[(past r).length + j] := by
        rw [List.getElem_drop, List.getElem_take]
      rw [← hgt]
      exact hcon

omit [DecidableEq C] [DecidableEq K] in
/-- A process that belongs to the communicator of the first pending operation has called it. -/
theorem Follows.head {M : Sem C K V} {r : Nat} {p : Prog C K V R} {S Q : List (Entry C K V)} {c : C} {κ : K} {v : Nat → V} {a : R} {len : Nat}
    (h : Follows M r p (S ++ (c, κ, v) :: Q) a len) (hS : ∀ e ∈ S, r ∉ M.mem e.1) (hc : r ∈ M.mem c) : ∃ k, p = .op c κ (v r) k := by
  induction S with
  | nil =>
    cases h with
    | skip hm _ => exact absurd hc hm
    | op _ hx _ =>
      subst hx
      exact ⟨_, rfl⟩
  | cons e S ih =>
    cases h with
    | skip hm h => exact ih h fun e he => hS e (by simp [he])
    | op hm _ _ => exact absurd hm (hS _ List.mem_cons_self)

/-- Unless all processes are done, some process can make a step. -/
theorem Inv.progress {n : Nat} {M : Sem C K V} (hmem : ∀ c, ∀ q ∈ M.mem c, q < n) {T : List (Entry C K V)} {res : Nat → R}
    {s : State C K V R} {past rest : Nat → List (Entry C K V)} {len : Nat → Nat} (h : Inv n M T res s past rest len)
    (hd : ¬ AllDone n res s) : ∃ r, r < n ∧ Exch.step n M s r ≠ s := by
  by_cases hex : ∃ r, r < n ∧ ∃ e ∈ rest r, r ∈ M.mem e.1
  swap
  · exfalso
    apply hd
    intro r hr
    rcases (h.follows r hr).cases with ⟨h1, -, -⟩ | ⟨S, c, κ, v, k, T', l, h1, h2, h3, h4, h5, h6⟩
    · exact h1
    · exact absurd ⟨r, hr, (c, κ, v), by simp [h2], h4⟩ hex
  obtain ⟨P, ⟨c, κ, v⟩, Q, hT, ⟨r0, hr0, hm0, hle0⟩, hall⟩ := exists_first n M T past rest h.split hex
  have hhead : ∀ r, r < n → r ∈ M.mem c → (past r).length ≤ P.length → ∃ k, s.prog r = .op c κ (v r) k := by
    intro r hr hm hle
    obtain ⟨S, -, hS2, hS3⟩ := hall r hr hle
    have hf := h.follows r hr
    rw [hS2] at hf
    exact hf.head hS3 hm
  have hcnt : ∀ r, r < n → r ∈ M.mem c → (past r).length ≤ P.length → s.cnt c r = (entries P c).length := by
    intro r hr hm hle
    obtain ⟨S, hS1, -, hS3⟩ := hall r hr hle
    rw [h.cnt r c hr hm, hS1, entries_append, entries_none M r c hm S hS3]
    simp
  have hpost : ∀ r c (x : K × V), s.sent c r ++ [x] ≠ s.sent c r := by
    intro r c x he
    have := congrArg List.length he
    simp at this
  -- somebody has not handed over the contribution yet
  by_cases hw : ∃ r, r < n ∧ r ∈ M.mem c ∧ (past r).length ≤ P.length ∧ (s.sent c r).length ≤ s.cnt c r
  · obtain ⟨r, hr, hm, hle, hlen⟩ := hw
    obtain ⟨k, hp⟩ := hhead r hr hm hle
    refine ⟨r, hr, fun he => ?_⟩
    have := congrArg (fun t : State C K V R => t.sent c r) he
    simp only [Exch.step, hr, hp, hm, hlen, if_true, and_self] at this
    exact hpost _ _ _ this
  push Not at hw
  obtain ⟨k, hp⟩ := hhead r0 hr0 hm0 hle0
  refine ⟨r0, hr0, fun he => ?_⟩
  have hrd : ready M s c κ r0 = true := by
    rw [ready, List.all_eq_true]
    intro q hq
    have hqn := hmem c q hq
    have hlt : s.cnt c r0 < (s.sent c q).length := by
      rw [hcnt r0 hr0 hm0 hle0]
      by_cases hle : (past q).length ≤ P.length
      · rw [← hcnt q hqn hq hle]
        exact hw q hqn hq hle
      · have h1 : P ++ [(c, κ, v)] <+: T := ⟨Q, by simp [hT]⟩
        have h2 : past q <+: T := ⟨rest q, h.split q hqn⟩
        obtain ⟨U, hU⟩ : P ++ [(c, κ, v)] <+: past q := List.prefix_of_prefix_length_le h1 h2 (by simp; omega)
        have h3 := h.le q c hqn hq
        rw [h.cnt q c hqn hq, ← hU, entries_append, entries_append] at h3
        simp only [List.length_append] at h3
        have h4 : (entries [(c, κ, v)] c).length = 1 := by simp [entries]
        omega
    obtain ⟨U, hU⟩ := h.sent q c hqn hq
    have hget : (s.sent c q)[s.cnt c r0]? = some (κ, v q) := by
      have : ((entries T c).map fun e => (e.1, e.2 q))[s.cnt c r0]? = some (κ, v q) := by
        rw [hcnt r0 hr0 hm0 hle0, List.getElem?_map, hT, entries_append]
        simp [entries]
      rw [← hU, List.getElem?_append_left hlt] at this
      exact this
    simp [hget]
  have := congrArg (fun t : State C K V R => t.cnt c r0) he
  simp only [Exch.step, hr0, hp, hm0, Nat.not_le.2 (hw r0 hr0 hm0 hle0), hrd, if_true, if_false, and_self] at this
  omega

/-! ## Results -/

/-- Programs that agree on the sequence of collective operations return their results, whatever the schedule. -/
theorem run_ret {n : Nat} {M : Sem C K V} (hM : M.Sound) (hmem : ∀ c, ∀ q ∈ M.mem c, q < n) (hnd : ∀ c, (M.mem c).Nodup) {T : List (Entry C K V)}
    {res : Nat → R} {p : Nat → Prog C K V R} {len : Nat → Nat} (h : ∀ r, r < n → Follows M r (p r) T (res r) (len r)) (sched : List Nat) (r : Nat)
    (hr : r < n) (a : R) (ha : (Exch.run n M (init p) sched).prog r = .ret a) : a = res r := by
  obtain ⟨past, rest, len', hi, -⟩ := (Inv.init h).run hM hmem hnd sched
  have hf := hi.follows r hr
  rw [ha] at hf
  rcases hf.cases with ⟨h1, -⟩ | ⟨S, c, κ, v, k, T', l, h1, -⟩
  · simpa using h1
  · cases h1

theorem AllDone.run {n : Nat} {M : Sem C K V} {res : Nat → R} {s : State C K V R} (h : AllDone n res s) (sched : List Nat) :
    Exch.run n M s sched = s := by
  induction sched with
  | nil => rfl
  | cons r sched ih =>
    have : Exch.step n M s r = s := by
      by_cases hr : r < n
      · simp [Exch.step, hr, h r hr]
      · simp [Exch.step, hr]
    simpa [Exch.run, this] using ih

theorem run_append (n : Nat) (M : Sem C K V) (s : State C K V R) (a b : List Nat) : Exch.run n M s (a ++ b) = Exch.run n M (Exch.run n M s a) b := by
  simp [run]

/-- A round in which every process gets its turn brings some process closer to its end. -/
theorem Inv.round {n : Nat} {M : Sem C K V} (hM : M.Sound) (hmem : ∀ c, ∀ q ∈ M.mem c, q < n) (hnd : ∀ c, (M.mem c).Nodup) {T : List (Entry C K V)}
    {res : Nat → R} {s : State C K V R} {past rest : Nat → List (Entry C K V)} {len : Nat → Nat} (h : Inv n M T res s past rest len)
    (hd : ¬ AllDone n res s) (round : List Nat) (hround : ∀ r, r < n → r ∈ round) :
    ∃ past' rest' len', Inv n M T res (Exch.run n M s round) past' rest' len' ∧ left n (Exch.run n M s round) len' + 1 ≤ left n s len := by
  obtain ⟨r0, hr0, hne⟩ := h.progress hmem hd
  have hm := hround r0 hr0
  clear hround
  induction round with
  | nil => cases hm
  | cons r round ih =>
    rcases h.step hM hmem hnd r with h' | ⟨p', r', m', h', hs⟩
    · rcases List.mem_cons.1 hm with rfl | hm
      · exact absurd h' hne
      · obtain ⟨p'', r'', m'', h'', hs'⟩ := ih hm
        have e : Exch.run n M s (r :: round) = Exch.run n M s round := by
          show Exch.run n M (Exch.step n M s r) round = _
          rw [h']
        rw [e]
        exact ⟨p'', r'', m'', h'', hs'⟩
    · obtain ⟨p'', r'', m'', h'', hs'⟩ := h'.run hM hmem hnd round
      refine ⟨p'', r'', m'', h'', ?_⟩
      have e : Exch.run n M s (r :: round) = Exch.run n M (Exch.step n M s r) round := rfl
      rw [e]
      omega

/-- Fair executions end. -/
theorem run_fair {n : Nat} {M : Sem C K V} (hM : M.Sound) (hmem : ∀ c, ∀ q ∈ M.mem c, q < n) (hnd : ∀ c, (M.mem c).Nodup) {T : List (Entry C K V)}
    {res : Nat → R} {p : Nat → Prog C K V R} {len : Nat → Nat} (h : ∀ r, r < n → Follows M r (p r) T (res r) (len r)) (rounds : List (List Nat))
    (hrounds : ∀ round ∈ rounds, ∀ r, r < n → r ∈ round) (hlen : (∑ r ∈ Finset.range n, (2 * len r + 1)) ≤ rounds.length) :
    AllDone n res (Exch.run n M (init p) rounds.flatten) := by
  have hl0 : left n (init p) len ≤ rounds.length := by
    refine le_trans ?_ hlen
    refine Finset.sum_le_sum fun r _ => ?_
    split_ifs <;> omega
  suffices H : ∀ (s : State C K V R) (past rest : Nat → List (Entry C K V)) (len : Nat → Nat), Inv n M T res s past rest len →
      left n s len ≤ rounds.length → AllDone n res (Exch.run n M s rounds.flatten) from H _ _ _ _ (Inv.init h) hl0
  intro s past rest len hi hl
  clear hlen h hl0
  induction rounds generalizing s past rest len with
  | nil =>
    by_contra hd
    obtain ⟨r0, hr0, hne⟩ := hi.progress hmem hd
    rcases hi.step hM hmem hnd r0 with h' | ⟨p', r', m', h', hs⟩
    · exact hne h'
    · simp only [List.length_nil] at hl
      omega
  | cons round rounds ih =>
    rw [List.flatten_cons, run_append]
    by_cases hd : AllDone n res s
    · rw [hd.run, hd.run]
      exact hd
    · obtain ⟨p', r', m', h', hs⟩ := hi.round hM hmem hnd hd round (hrounds round (by simp))
      refine ih (fun rd hrd => hrounds rd (by simp [hrd])) _ p' r' m' h' ?_
      simp only [List.length_cons] at hl
      omega

end

end Verif.MPI.Exch
