import Mathlib.Algebra.BigOperators.Group.Finset.Basic
import Mathlib.Algebra.Order.BigOperators.Group.Finset
import Mathlib.Data.List.GetD
import Verif.MPI.Model

/-!
# Processes that communicate collectively

Model of what MPI guarantees: every process runs its own program; collective operations on the same communicator are matched in the order in which
they are called. The scheduler is arbitrary. Whether the root of a broadcast has to wait for the receivers is left open by the MPI standard and is
thus a parameter (`sync`).
-/

namespace Verif.MPI.Coll

/-- Programs of processes. `C`: communicators; `V`: objects that can be sent; `R`: results. `raise`: the process ends with an exception; `print`: output
on the screen; `bcast`: `comm.bcast`/`comm.Bcast`, where the object given by other processes than the root is ignored; `barrier`: `comm.Barrier` and
other operations that involve all processes of a communicator but no data considered here. -/
inductive Prog (C V R : Type) where
  | ret (a : R)
  | raise
  | print (m : String) (k : Prog C V R)
  | bcast (c : C) (v : V) (k : V → Prog C V R)
  | barrier (c : C) (k : Prog C V R)

/-- One program after the other. -/
def Prog.bind {C V R S : Type} : Prog C V R → (R → Prog C V S) → Prog C V S
  | .ret a, f => f a
  | .raise, _ => .raise
  | .print m k, f => .print m (k.bind f)
  | .bcast c v k, f => .bcast c v fun x => (k x).bind f
  | .barrier c k, f => .barrier c (k.bind f)

/-- Communicators: members and root (rank 0 of the communicator). -/
structure Comms (C : Type) where
  mem : C → Nat → Bool
  root : C → Nat

/-- State of all processes: remaining programs, number of collective operations passed per communicator and process, messages of the root (`none` for a
barrier), screen (with the process that printed). -/
structure State (C V R : Type) where
  prog : Nat → Prog C V R
  cnt : C → Nat → Nat
  msgs : C → List (Option V)
  out : List (Nat × String)

section
variable {C V R : Type} [DecidableEq C]

/-- Has process `r` called collective operation number `m` on `c`, which is a barrier (`bar`) or a broadcast, or has it passed it? -/
def arrived (s : State C V R) (c : C) (m : Nat) (bar : Bool) (r : Nat) : Bool :=
  decide (m < s.cnt c r) || (decide (s.cnt c r = m) && match s.prog r with
    | .bcast c' _ _ => !bar && decide (c' = c)
    | .barrier c' _ => bar && decide (c' = c)
    | _ => false)

/-- All members have arrived. -/
def allArrived (n : Nat) (G : Comms C) (s : State C V R) (c : C) (m : Nat) (bar : Bool) : Bool :=
  (List.range n).all fun r => !G.mem c r || arrived s c m bar r

/-- Process `r` passes an operation on `c` and continues with `k`. -/
def pass (s : State C V R) (c : C) (r : Nat) (k : Prog C V R) (msg : Option (Option V)) : State C V R :=
  { s with prog := fun r' => if r' = r then k else s.prog r',
           cnt := fun c' r' => if c' = c ∧ r' = r then s.cnt c r + 1 else s.cnt c' r',
           msgs := fun c' => if c' = c then s.msgs c ++ msg.toList else s.msgs c' }

/-- One step of process `r` (no change if it has to wait or is done). -/
def step (n : Nat) (G : Comms C) (sync : Bool) (s : State C V R) (r : Nat) : State C V R :=
  if r < n then
    match s.prog r with
    | .ret _ => s
    | .raise => s
    | .print m k => { s with prog := fun r' => if r' = r then k else s.prog r', out := s.out ++ [(r, m)] }
    | .bcast c v k =>
      if G.mem c r then
        if r = G.root c then
          if !sync || allArrived n G s c (s.cnt c r) false then pass s c r (k v) (some (some v)) else s
        else
          match (s.msgs c)[s.cnt c r]? with
          | some (some x) => pass s c r (k x) none
          | _ => s
      else s
    | .barrier c k =>
      if G.mem c r && allArrived n G s c (s.cnt c r) true then pass s c r k (if r = G.root c then some none else none) else s
  else s

/-- Begin of the execution. -/
def init (p : Nat → Prog C V R) : State C V R := { prog := p, cnt := fun _ _ => 0, msgs := fun _ => [], out := [] }

/-- Execution with given schedule. -/
def run (n : Nat) (G : Comms C) (sync : Bool) (s : State C V R) (sched : List Nat) : State C V R := sched.foldl (step n G sync) s

/-! ## Programs that agree on a sequence of operations -/

/-- Program of process `r` takes part in exactly the operations of `T` on communicators it belongs to, in this order, and then returns `a`. The
root sends the objects given in `T`. `ms` lists the steps of the process: messages or (`none`) collective operations. -/
inductive Follows (G : Comms C) (r : Nat) : Prog C V R → List (C × Option V) → R → List (Option String) → Prop
  | ret (a : R) : Follows G r (.ret a) [] a []
  | print {m k T a ms} : Follows G r k T a ms → Follows G r (.print m k) T a (some m :: ms)
  | skip {c x p T a ms} : G.mem c r = false → Follows G r p T a ms → Follows G r p ((c, x) :: T) a ms
  | bcast {c x v k T a ms} : G.mem c r = true → (r = G.root c → v = x) → Follows G r (k x) T a ms →
      Follows G r (.bcast c v k) ((c, some x) :: T) a (none :: ms)
  | barrier {c k T a ms} : G.mem c r = true → Follows G r k T a ms → Follows G r (.barrier c k) ((c, none) :: T) a (none :: ms)

theorem Follows.bind {S : Type} {G : Comms C} {r : Nat} {p : Prog C V R} {T T' : List (C × Option V)} {a : R} {b : S} {l l' : List (Option String)}
    {f : R → Prog C V S} (h : Follows G r p T a l) (hf : Follows G r (f a) T' b l') : Follows G r (p.bind f) (T ++ T') b (l ++ l') := by
  induction h with
  | ret a => simpa [Prog.bind] using hf
  | print _ ih => simpa [Prog.bind] using Follows.print (ih hf)
  | skip hm _ ih => exact Follows.skip hm (ih hf)
  | bcast hm hv _ ih => simpa [Prog.bind] using Follows.bcast hm hv (ih hf)
  | barrier hm _ ih => simpa [Prog.bind] using Follows.barrier hm (ih hf)

/-- Operations on communicator `c`. -/
def entries (T : List (C × Option V)) (c : C) : List (Option V) := (T.filter fun e => decide (e.1 = c)).map Prod.snd

theorem entries_append (T T' : List (C × Option V)) (c : C) : entries (T ++ T') c = entries T c ++ entries T' c := by
  simp [entries]

theorem entries_none (G : Comms C) (r : Nat) (c : C) (hc : G.mem c r = true) (T : List (C × Option V)) (hT : ∀ e ∈ T, G.mem e.1 r = false) :
    entries T c = [] := by
  simp only [entries, List.map_eq_nil_iff, List.filter_eq_nil_iff, decide_eq_true_eq]
  rintro e he rfl
  rw [hT e he] at hc
  cases hc

/-- What a process that follows `T` does next. -/
theorem Follows.cases {G : Comms C} {r : Nat} {p : Prog C V R} {T : List (C × Option V)} {a : R} {len : List (Option String)} (h : Follows G r p T a len) :
    (p = .ret a ∧ ∀ e ∈ T, G.mem e.1 r = false) ∨
      (∃ m k l, p = .print m k ∧ Follows G r k T a l ∧ len = some m :: l) ∨
      (∃ S c x v k T' l, p = .bcast c v k ∧ T = S ++ (c, some x) :: T' ∧ (∀ e ∈ S, G.mem e.1 r = false) ∧ G.mem c r = true ∧
        (r = G.root c → v = x) ∧ Follows G r (k x) T' a l ∧ len = none :: l) ∨
      (∃ S c k T' l, p = .barrier c k ∧ T = S ++ (c, none) :: T' ∧ (∀ e ∈ S, G.mem e.1 r = false) ∧ G.mem c r = true ∧
        Follows G r k T' a l ∧ len = none :: l) := by
  induction h with
  | ret a => exact Or.inl ⟨rfl, by simp⟩
  | print h _ => exact Or.inr (Or.inl ⟨_, _, _, rfl, h, rfl⟩)
  | @skip c x p T a len hm h ih =>
    rcases ih with ⟨h1, h2⟩ | ⟨m, k, l, h1, h2, h3⟩ | ⟨S, c', x', v, k, T', l, h1, h2, h3, h4, h5, h6, h7⟩ | ⟨S, c', k, T', l, h1, h2, h3, h4, h5, h6⟩
    · exact Or.inl ⟨h1, by simpa [hm] using h2⟩
    · exact Or.inr (Or.inl ⟨m, k, l, h1, Follows.skip hm h2, h3⟩)
    · exact Or.inr (Or.inr (Or.inl ⟨(c, x) :: S, c', x', v, k, T', l, h1, by rw [h2]; rfl, by simpa [hm] using h3, h4, h5, h6, h7⟩))
    · exact Or.inr (Or.inr (Or.inr ⟨(c, x) :: S, c', k, T', l, h1, by rw [h2]; rfl, by simpa [hm] using h3, h4, h5, h6⟩))
  | bcast hm hv h _ => exact Or.inr (Or.inr (Or.inl ⟨[], _, _, _, _, _, _, rfl, rfl, by simp, hm, hv, h, rfl⟩))
  | barrier hm h _ => exact Or.inr (Or.inr (Or.inr ⟨[], _, _, _, _, rfl, rfl, by simp, hm, h, rfl⟩))

/-! ## Invariant -/

/-- What process `r` has printed. -/
def printed (s : State C V R) (r : Nat) : List String := (s.out.filter fun e => decide (e.1 = r)).map Prod.snd

/-- Every process has passed a part `past r` of `T` and follows the rest. -/
structure Inv (n : Nat) (G : Comms C) (T : List (C × Option V)) (res : Nat → R) (all : Nat → List String) (s : State C V R) (past rest : Nat → List (C × Option V))
    (rem : Nat → List (Option String)) : Prop where
  split : ∀ r, r < n → past r ++ rest r = T
  follows : ∀ r, r < n → Follows G r (s.prog r) (rest r) (res r) (rem r)
  cnt : ∀ r c, r < n → G.mem c r = true → s.cnt c r = (entries (past r) c).length
  msgs : ∀ c, G.root c < n → s.msgs c = entries (past (G.root c)) c
  out : ∀ r, r < n → printed s r ++ (rem r).reduceOption = all r

omit [DecidableEq C] in
theorem Inv.init [DecidableEq C] {n : Nat} {G : Comms C} {T : List (C × Option V)} {res : Nat → R} {p : Nat → Prog C V R} {len : Nat → List (Option String)}
    (h : ∀ r, r < n → Follows G r (p r) T (res r) (len r)) : Inv n G T res (fun r => (len r).reduceOption) (init p) (fun _ => []) (fun _ => T) len :=
  ⟨fun _ _ => rfl, h, fun _ _ _ _ => rfl, fun _ _ => rfl, fun _ _ => rfl⟩

/-- The state after process `r` has passed an operation. -/
theorem Inv.pass {n : Nat} {G : Comms C} (hG : ∀ c, G.root c < n → G.mem c (G.root c) = true) {T : List (C × Option V)} {res : Nat → R} {s : State C V R}
    {past rest : Nat → List (C × Option V)} {rem : Nat → List (Option String)} (h : Inv n G T res all s past rest rem) (r : Nat) (hr : r < n)
    (c : C) (y : Option V) (S T' : List (C × Option V)) (hrest : rest r = S ++ (c, y) :: T') (hS : ∀ e ∈ S, G.mem e.1 r = false)
    (hc : G.mem c r = true) (k : Prog C V R) (l : List (Option String)) (hk : Follows G r k T' (res r) l) (hl : rem r = none :: l) :
    Inv n G T res all (Coll.pass s c r k (if r = G.root c then some y else none)) (fun q => if q = r then past r ++ (S ++ [(c, y)]) else past q)
      (fun q => if q = r then T' else rest q) (fun q => if q = r then l else rem q) := by
  have hent : ∀ c', G.mem c' r = true → entries (past r ++ (S ++ [(c, y)])) c' = entries (past r) c' ++ if c = c' then [y] else [] := by
    intro c' hc'
    rw [entries_append, entries_append, entries_none G r c' hc' S hS]
    by_cases e : c = c' <;> simp [entries, e]
  constructor
  · intro q hq
    by_cases e : q = r
    · subst e
      simp only [if_pos]
      rw [← h.split q hq, hrest]
      simp
    · simp only [e, if_false]
      exact h.split q hq
  · intro q hq
    by_cases e : q = r
    · subst e
      simpa [Coll.pass] using hk
    · simpa [Coll.pass, e] using h.follows q hq
  · intro q c' hq hc'
    by_cases e : q = r
    · subst e
      simp only [Coll.pass, if_pos, and_true]
      rw [hent c' hc']
      by_cases e' : c' = c
      · subst e'
        simp [h.cnt q c' hq hc']
      · have e'' : ¬ c = c' := fun h => e' h.symm
        simp [e', e'', h.cnt q c' hq hc']
    · simpa [Coll.pass, e] using h.cnt q c' hq hc'
  · intro c' hroot
    by_cases e : G.root c' = r
    · rw [if_pos e]
      rw [hent c' (by rw [← e]; exact hG c' hroot)]
      by_cases e' : c' = c
      · subst e'
        simp [Coll.pass, e, h.msgs c' hroot]
      · have e'' : ¬ c = c' := fun h => e' h.symm
        simp [Coll.pass, e', e'', h.msgs c' hroot, e]
    · rw [if_neg e]
      by_cases e' : c' = c
      · subst e'
        have : ¬ r = G.root c' := fun h => e h.symm
        simp [Coll.pass, this, h.msgs c' hroot]
      · simp [Coll.pass, e', h.msgs c' hroot]
  · intro q hq
    by_cases e : q = r
    · subst e
      rw [if_pos rfl, ← h.out q hq, hl]
      rfl
    · rw [if_neg e]
      exact h.out q hq

/-- The message for an operation, if it has been sent, is the one of `T`. -/
theorem entries_get (P Q P' Q' : List (C × Option V)) (c : C) (y : Option V) (hP : P ++ (c, y) :: Q = P' ++ Q') (z : Option V)
    (hz : (entries P' c)[(entries P c).length]? = some z) : z = y := by
  have h1 : (entries (P' ++ Q') c)[(entries P c).length]? = some z := by
    rw [entries_append, List.getElem?_append_left]
    · exact hz
    · exact (List.getElem?_eq_some_iff.1 hz).1
  rw [← hP, entries_append] at h1
  simp [entries] at h1
  exact h1.symm

theorem sum_update (n r : Nat) (hr : r < n) (f : Nat → List (Option String)) (m : Option String) (l : List (Option String)) (hl : f r = m :: l) :
    (∑ q ∈ Finset.range n, (if q = r then l else f q).length) + 1 = ∑ q ∈ Finset.range n, (f q).length := by
  have hm := Finset.mem_range.2 hr
  rw [← Finset.add_sum_erase _ _ hm, ← Finset.add_sum_erase (Finset.range n) (fun q => (f q).length) hm, if_pos rfl, hl]
  have : ∑ q ∈ (Finset.range n).erase r, (if q = r then l else f q).length = ∑ q ∈ (Finset.range n).erase r, (f q).length :=
    Finset.sum_congr rfl fun q hq => by rw [if_neg (Finset.ne_of_mem_erase hq)]
  rw [this, List.length_cons]
  omega

/-- A step either does not change the state or brings a process closer to its end. -/
theorem Inv.step {n : Nat} {G : Comms C} (hG : ∀ c, G.root c < n → G.mem c (G.root c) = true) {T : List (C × Option V)} {res : Nat → R} {all : Nat → List String} (hroot : ∀ c r, r < n → G.mem c r = true → G.root c < n) {s : State C V R}
    {past rest : Nat → List (C × Option V)} {rem : Nat → List (Option String)} (h : Inv n G T res all s past rest rem) (sync : Bool) (r : Nat) :
    Coll.step n G sync s r = s ∨ ∃ past' rest' rem', Inv n G T res all (Coll.step n G sync s r) past' rest' rem' ∧
      (∑ q ∈ Finset.range n, (rem' q).length) + 1 = ∑ q ∈ Finset.range n, (rem q).length := by
  by_cases hr : r < n
  swap
  · left
    simp [Coll.step, hr]
  rcases (h.follows r hr).cases with ⟨h1, h2⟩ | ⟨m, k, l, h1, h2, h3⟩ | ⟨S, c, x, v, k, T', l, h1, h2, h3, h4, h5, h6, h7⟩ |
    ⟨S, c, k, T', l, h1, h2, h3, h4, h5, h6⟩
  · left
    simp [Coll.step, hr, h1]
  · right
    refine ⟨past, rest, fun q => if q = r then l else rem q, ⟨h.split, ?_, ?_, ?_, ?_⟩, sum_update n r hr rem (some m) l h3⟩
    · intro q hq
      by_cases e : q = r
      · subst e
        simpa [Coll.step, hr, h1] using h2
      · simpa [Coll.step, hr, h1, e] using h.follows q hq
    · intro q c hq hc
      simpa [Coll.step, hr, h1] using h.cnt q c hq hc
    · intro c hc
      simpa [Coll.step, hr, h1] using h.msgs c hc
    · intro q hq
      rw [← h.out q hq]
      by_cases e : q = r
      · subst e
        simp [Coll.step, hr, h1, printed, h3, List.reduceOption]
      · have e' : ¬ r = q := fun h => e h.symm
        simp [Coll.step, hr, h1, printed, e, e']
  · have hp := h.pass hG r hr c (some x) S T' h2 h3 h4 (k x) l h6 h7
    by_cases e : r = G.root c
    · have hv := h5 e
      subst hv
      rw [if_pos e] at hp
      by_cases ha : (!sync || allArrived n G s c (s.cnt c r) false) = true
      · right
        refine ⟨fun q => if q = r then past r ++ (S ++ [(c, some v)]) else past q, fun q => if q = r then T' else rest q, _, ?_, sum_update n r hr rem none l h7⟩
        have : Coll.step n G sync s r = Coll.pass s c r (k v) (some (some v)) := by
          simp only [Coll.step, hr, h1, h4, ha, if_true]
          rw [if_pos e]
        rw [this]
        exact hp
      · left
        simp only [Coll.step, hr, h1, h4, ha, if_true]
        rw [if_pos e]
        simp
    · rw [if_neg e] at hp
      cases hm : (s.msgs c)[s.cnt c r]? with
      | none =>
        left
        simp [Coll.step, hr, h1, h4, e, hm]
      | some z =>
        have hz : z = some x := by
          rw [h.msgs c (hroot c r hr h4), h.cnt r c hr h4] at hm
          refine entries_get (past r ++ S) T' (past (G.root c)) (rest (G.root c)) c (some x) ?_ z ?_
          · rw [h.split _ (hroot c r hr h4), ← h.split r hr, h2]
            simp
          · rw [entries_append, entries_none G r c h4 S h3]
            simpa using hm
        subst hz
        right
        refine ⟨fun q => if q = r then past r ++ (S ++ [(c, some x)]) else past q, fun q => if q = r then T' else rest q, _, ?_, sum_update n r hr rem none l h7⟩
        have : Coll.step n G sync s r = Coll.pass s c r (k x) none := by
          simp [Coll.step, hr, h1, h4, e, hm]
        rw [this]
        exact hp
  · have hp := h.pass hG r hr c none S T' h2 h3 h4 k l h5 h6
    by_cases ha : (G.mem c r && allArrived n G s c (s.cnt c r) true) = true
    · right
      refine ⟨fun q => if q = r then past r ++ (S ++ [(c, none)]) else past q, fun q => if q = r then T' else rest q, _, ?_, sum_update n r hr rem none l h6⟩
      have : Coll.step n G sync s r = Coll.pass s c r k (if r = G.root c then some none else none) := by
        simp only [Coll.step, hr, h1, ha, if_true]
      rw [this]
      exact hp
    · left
      simp only [Coll.step, hr, h1, ha, if_true]
      simp

theorem Inv.run {n : Nat} {G : Comms C} (hG : ∀ c, G.root c < n → G.mem c (G.root c) = true) {T : List (C × Option V)} {res : Nat → R} {all : Nat → List String} (hroot : ∀ c r, r < n → G.mem c r = true → G.root c < n)
    (sync : Bool) (sched : List Nat) {s : State C V R}
    {past rest : Nat → List (C × Option V)} {rem : Nat → List (Option String)} (h : Inv n G T res all s past rest rem) :
    ∃ past' rest' rem', Inv n G T res all (Coll.run n G sync s sched) past' rest' rem' ∧
      (∑ q ∈ Finset.range n, (rem' q).length) ≤ ∑ q ∈ Finset.range n, (rem q).length := by
  induction sched generalizing s past rest rem with
  | nil => exact ⟨_, _, _, h, le_rfl⟩
  | cons r sched ih =>
    rcases h.step hG hroot sync r with h' | ⟨p', r', m', h', hs⟩
    · have := ih h
      simpa [Coll.run, h'] using this
    · obtain ⟨p'', r'', m'', h'', hs'⟩ := ih h'
      exact ⟨p'', r'', m'', h'', by omega⟩

/-! ## No deadlock -/

/-- All processes have returned. -/
def AllDone (n : Nat) (res : Nat → R) (s : State C V R) : Prop := ∀ r, r < n → s.prog r = .ret (res r)

/-- The first operation some process still has to take part in. -/
theorem exists_first (n : Nat) (G : Comms C) (T : List (C × Option V)) (past rest : Nat → List (C × Option V))
    (h : ∀ r, r < n → past r ++ rest r = T) (hex : ∃ r, r < n ∧ ∃ e ∈ rest r, G.mem e.1 r = true) :
    ∃ P e Q, T = P ++ e :: Q ∧ (∃ r, r < n ∧ G.mem e.1 r = true ∧ (past r).length ≤ P.length) ∧
      ∀ r, r < n → (past r).length ≤ P.length → ∃ S, P = past r ++ S ∧ rest r = S ++ e :: Q ∧ ∀ e' ∈ S, G.mem e'.1 r = false := by
  -- smallest index
  have hidx : ∃ i, ∃ r, r < n ∧ (past r).length ≤ i ∧ ∃ hi : i < T.length, G.mem (T[i]).1 r = true := by
    obtain ⟨r, hr, e, he, hm⟩ := hex
    obtain ⟨j, hj, rfl⟩ := List.mem_iff_getElem.1 he
    have hlen : (past r ++ rest r).length = T.length := by rw [h r hr]
    simp only [List.length_append] at hlen
    have hlt : (past r).length + j < T.length := by omega
    refine ⟨(past r).length + j, r, hr, by omega, hlt, ?_⟩
    have : T[(past r).length + j] = (rest r)[j] := by
      simp only [← h r hr]
      rw [List.getElem_append_right (by omega)]
      simp
    rw [this]
    exact hm
  classical
  obtain ⟨i, hi, hmin⟩ : ∃ i, (∃ r, r < n ∧ (past r).length ≤ i ∧ ∃ hi : i < T.length, G.mem (T[i]).1 r = true) ∧
      ∀ j < i, ¬ ∃ r, r < n ∧ (past r).length ≤ j ∧ ∃ hj : j < T.length, G.mem (T[j]).1 r = true :=
    ⟨Nat.find hidx, Nat.find_spec hidx, fun j hj => Nat.find_min hidx hj⟩
  obtain ⟨r0, hr0, hle0, hlt, hm0⟩ := hi
  have hPlen : (T.take i).length = i := by simp; omega
  refine ⟨T.take i, T[i], T.drop (i + 1), ?_, ⟨r0, hr0, hm0, by omega⟩, ?_⟩
  · rw [← List.drop_eq_getElem_cons hlt, List.take_append_drop]
  · intro r hr hle
    rw [hPlen] at hle
    have e1 : past r = T.take (past r).length := by
      conv_rhs => rw [← h r hr]
      simp
    have e2 : rest r = T.drop (past r).length := by
      conv_rhs => rw [← h r hr]
      simp
    refine ⟨(T.take i).drop (past r).length, ?_, ?_, ?_⟩
    · have : (T.take i).take (past r).length = past r := by
        rw [List.take_take, min_eq_left hle]
        exact e1.symm
      conv_lhs => rw [← List.take_append_drop (past r).length (T.take i)]
      rw [this]
    · rw [e2]
      conv_lhs => rw [← List.take_append_drop i T]
      rw [List.drop_append_of_le_length (by omega), List.drop_eq_getElem_cons hlt]
    · intro e' he'
      obtain ⟨j, hj, rfl⟩ := List.mem_iff_getElem.1 he'
      simp only [List.length_drop, hPlen] at hj
      have := hmin ((past r).length + j) (by omega)
      by_contra hcon
      refine this ⟨r, hr, by omega, by omega, ?_⟩
      have hgt : ((T.take i).drop (past r).length)[j] = T[(past r).length + j] := by
        rw [List.getElem_drop, List.getElem_take]
      rw [← hgt]
      simpa using hcon

theorem entries_length_mono (P Q : List (C × Option V)) (c : C) : (entries P c).length ≤ (entries (P ++ Q) c).length := by
  rw [entries_append]
  simp

/-- A process that belongs to the communicator of the first pending operation has called it. -/
theorem Follows.head {G : Comms C} {r : Nat} {p : Prog C V R} {S Q : List (C × Option V)} {c : C} {y : Option V} {a : R} {len : List (Option String)}
    (h : Follows G r p (S ++ (c, y) :: Q) a len) (hS : ∀ e ∈ S, G.mem e.1 r = false) (hc : G.mem c r = true) :
    (∃ m k, p = .print m k) ∨ (∃ x v k, y = some x ∧ p = .bcast c v k) ∨ (∃ k, y = none ∧ p = .barrier c k) := by
  have key : ∀ (S' T' : List (C × Option V)) (c' : C) (y' : Option V), S ++ (c, y) :: Q = S' ++ (c', y') :: T' →
      (∀ e ∈ S', G.mem e.1 r = false) → G.mem c' r = true → (c, y) = (c', y') := by
    intro S' T' c' y' he hS' hc'
    clear h
    induction S generalizing S' with
    | nil =>
      cases S' with
      | nil =>
        simp only [List.nil_append, List.cons.injEq] at he
        exact he.1
      | cons e S' =>
        simp only [List.nil_append, List.cons_append, List.cons.injEq] at he
        have := hS' e (by simp)
        rw [← he.1, hc] at this
        cases this
    | cons e S ih =>
      cases S' with
      | nil =>
        simp only [List.nil_append, List.cons_append, List.cons.injEq] at he
        have := hS e (by simp)
        rw [he.1, hc'] at this
        cases this
      | cons e' S' =>
        simp only [List.cons_append, List.cons.injEq] at he
        exact ih (fun e he => hS e (by simp [he])) S' he.2 (fun e he => hS' e (by simp [he]))
  rcases h.cases with ⟨h1, h2⟩ | ⟨m, k, l, h1, h2, h3⟩ | ⟨S', c', x, v, k, T', l, h1, h2, h3, h4, h5, h6, h7⟩ | ⟨S', c', k, T', l, h1, h2, h3, h4, h5, h6⟩
  · have := h2 (c, y) (by simp)
    rw [this] at hc
    cases hc
  · exact Or.inl ⟨m, k, h1⟩
  · have e := key S' T' c' (some x) h2 h3 h4
    simp only [Prod.mk.injEq] at e
    obtain ⟨rfl, rfl⟩ := e
    exact Or.inr (Or.inl ⟨x, v, k, rfl, h1⟩)
  · have e := key S' T' c' none h2 h3 h4
    simp only [Prod.mk.injEq] at e
    obtain ⟨rfl, rfl⟩ := e
    exact Or.inr (Or.inr ⟨k, rfl, h1⟩)

/-- Unless all processes are done, some process can make a step. -/
theorem Inv.progress {n : Nat} {G : Comms C} (hG : ∀ c, G.root c < n → G.mem c (G.root c) = true) {T : List (C × Option V)} {res : Nat → R} {all : Nat → List String} (hroot : ∀ c r, r < n → G.mem c r = true → G.root c < n)
    (sync : Bool) {s : State C V R} {past rest : Nat → List (C × Option V)} {rem : Nat → List (Option String)} (h : Inv n G T res all s past rest rem)
    (hd : ¬ AllDone n res s) : ∃ r, r < n ∧ Coll.step n G sync s r ≠ s := by
  by_cases hprint : ∃ r, r < n ∧ ∃ m k, s.prog r = .print m k
  · obtain ⟨r, hr, m, k, hp⟩ := hprint
    refine ⟨r, hr, fun he => ?_⟩
    have := congrArg (fun t : State C V R => t.out.length) he
    simp [Coll.step, hr, hp] at this
  have hpass : ∀ (r : Nat) (c : C) (k : Prog C V R) (msg : Option (Option V)), Coll.pass s c r k msg ≠ s := by
    intro r c k msg he
    have := congrArg (fun t : State C V R => t.cnt c r) he
    simp [Coll.pass] at this
  by_cases hex : ∃ r, r < n ∧ ∃ e ∈ rest r, G.mem e.1 r = true
  swap
  · exfalso
    apply hd
    intro r hr
    rcases (h.follows r hr).cases with ⟨h1, h2⟩ | ⟨m, k, l, h1, h2, h3⟩ | ⟨S', c', x, v, k, T', l, h1, h2, h3, h4, h5, h6, h7⟩ |
      ⟨S', c', k, T', l, h1, h2, h3, h4, h5, h6⟩
    · exact h1
    · exact absurd ⟨r, hr, m, k, h1⟩ hprint
    · exact absurd ⟨r, hr, (c', some x), by simp [h2], h4⟩ hex
    · exact absurd ⟨r, hr, (c', none), by simp [h2], h4⟩ hex
  obtain ⟨P, ⟨c, y⟩, Q, hT, ⟨r0, hr0, hm0, hle0⟩, hall⟩ := exists_first n G T past rest h.split hex
  have hrt := hroot c r0 hr0 hm0
  have hgt := hG c hrt
  -- counts
  have hcnt : ∀ r, r < n → G.mem c r = true → (past r).length ≤ P.length → s.cnt c r = (entries P c).length := by
    intro r hr hm hle
    obtain ⟨S, hS1, -, hS3⟩ := hall r hr hle
    rw [h.cnt r c hr hm, hS1, entries_append, entries_none G r c hm S hS3]
    simp
  have hent : (entries (P ++ [(c, y)]) c).length = (entries P c).length + 1 := by
    rw [entries_append]
    simp [entries]
  have hbeyond : ∀ r, r < n → P.length < (past r).length → ∃ U, past r = (P ++ [(c, y)]) ++ U := by
    intro r hr hlt
    have hs := h.split r hr
    rw [hT] at hs
    have h1 : P ++ [(c, y)] <+: T := ⟨Q, by simp [hT]⟩
    have h2 : past r <+: T := ⟨rest r, h.split r hr⟩
    have h3 : P ++ [(c, y)] <+: past r := List.prefix_of_prefix_length_le h1 h2 (by simp; omega)
    obtain ⟨U, hU⟩ := h3
    exact ⟨U, hU.symm⟩
  have hcnt' : ∀ r, r < n → G.mem c r = true → P.length < (past r).length → (entries P c).length < s.cnt c r := by
    intro r hr hm hlt
    obtain ⟨U, hU⟩ := hbeyond r hr hlt
    rw [h.cnt r c hr hm, hU]
    have := entries_length_mono (P ++ [(c, y)]) U c
    omega
  have hhead : ∀ r, r < n → G.mem c r = true → (past r).length ≤ P.length →
      (∃ x v k, y = some x ∧ s.prog r = .bcast c v k) ∨ (∃ k, y = none ∧ s.prog r = .barrier c k) := by
    intro r hr hm hle
    obtain ⟨S, -, hS2, hS3⟩ := hall r hr hle
    have hf := h.follows r hr
    rw [hS2] at hf
    rcases hf.head hS3 hm with ⟨m, k, hp⟩ | h' | h'
    · exact absurd ⟨r, hr, m, k, hp⟩ hprint
    · exact Or.inl h'
    · exact Or.inr h'
  have harr : ∀ r, r < n → (!G.mem c r || arrived s c (entries P c).length y.isNone r) = true := by
    intro r hr
    by_cases hm : G.mem c r = true
    swap
    · simp [hm]
    by_cases hle : (past r).length ≤ P.length
    · rcases hhead r hr hm hle with ⟨x, v, k, hy, hp⟩ | ⟨k, hy, hp⟩
      · simp [arrived, hm, hcnt r hr hm hle, hp, hy]
      · simp [arrived, hm, hcnt r hr hm hle, hp, hy]
    · simp [arrived, hm, hcnt' r hr hm (by omega)]
  have hallarr : allArrived n G s c (entries P c).length y.isNone = true := by
    simp only [allArrived, List.all_eq_true, List.mem_range]
    exact harr
  rcases hhead r0 hr0 hm0 hle0 with ⟨x, v, k, hy, hp⟩ | ⟨k, hy, hp⟩
  · -- broadcast
    subst hy
    by_cases hle : (past (G.root c)).length ≤ P.length
    · -- the root can send
      refine ⟨G.root c, hrt, ?_⟩
      rcases hhead (G.root c) hrt hgt hle with ⟨x', v', k', hy, hp'⟩ | ⟨k', hy, hp'⟩
      · have : Coll.step n G sync s (G.root c) = Coll.pass s c (G.root c) (k' v') (some (some v')) := by
          simp only [Coll.step, hrt, hp', hgt, if_true]
          rw [hcnt _ hrt hgt hle, show allArrived n G s c (entries P c).length false = true from hallarr]
          simp
        rw [this]
        exact hpass _ _ _ _
      · cases hy
    · -- the message has been sent
      refine ⟨r0, hr0, ?_⟩
      obtain ⟨U, hU⟩ := hbeyond (G.root c) hrt (by omega)
      have hne : r0 ≠ G.root c := by
        rintro rfl
        exact hle hle0
      have hmsg : (s.msgs c)[s.cnt c r0]? = some (some x) := by
        rw [h.msgs c hrt, hU, hcnt r0 hr0 hm0 hle0, entries_append, entries_append]
        simp [entries]
      have : Coll.step n G sync s r0 = Coll.pass s c r0 (k x) none := by
        simp [Coll.step, hr0, hp, hm0, hne, hmsg]
      rw [this]
      exact hpass _ _ _ _
  · subst hy
    refine ⟨r0, hr0, ?_⟩
    have : Coll.step n G sync s r0 = Coll.pass s c r0 k (if r0 = G.root c then some none else none) := by
      simp only [Coll.step, hr0, hp, hm0, if_true]
      rw [hcnt r0 hr0 hm0 hle0, show allArrived n G s c (entries P c).length true = true from hallarr]
      simp
    rw [this]
    exact hpass _ _ _ _

/-! ## Results -/

/-- Programs that agree on the sequence of collective operations return their results, whatever the schedule. -/
theorem run_ret {n : Nat} {G : Comms C} (hG : ∀ c, G.root c < n → G.mem c (G.root c) = true) (hroot : ∀ c r, r < n → G.mem c r = true → G.root c < n) {T : List (C × Option V)} {res : Nat → R}
    {p : Nat → Prog C V R} {len : Nat → List (Option String)} (h : ∀ r, r < n → Follows G r (p r) T (res r) (len r)) (sync : Bool) (sched : List Nat) (r : Nat)
    (hr : r < n) (a : R) (ha : (Coll.run n G sync (init p) sched).prog r = .ret a) : a = res r := by
  obtain ⟨past, rest, rem, hi, -⟩ := (Inv.init h).run hG hroot sync sched
  have hf := hi.follows r hr
  rw [ha] at hf
  rcases hf.cases with ⟨h1, -⟩ | ⟨m, k, l, h1, -⟩ | ⟨S', c', x, v, k, T', l, h1, -⟩ | ⟨S', c', k, T', l, h1, -⟩
  · simpa using h1
  all_goals cases h1

/-- They never raise. -/
theorem run_no_raise {n : Nat} {G : Comms C} (hG : ∀ c, G.root c < n → G.mem c (G.root c) = true) (hroot : ∀ c r, r < n → G.mem c r = true → G.root c < n) {T : List (C × Option V)} {res : Nat → R}
    {p : Nat → Prog C V R} {len : Nat → List (Option String)} (h : ∀ r, r < n → Follows G r (p r) T (res r) (len r)) (sync : Bool) (sched : List Nat) (r : Nat)
    (hr : r < n) : (Coll.run n G sync (init p) sched).prog r ≠ .raise := by
  intro ha
  obtain ⟨past, rest, rem, hi, -⟩ := (Inv.init h).run hG hroot sync sched
  have hf := hi.follows r hr
  rw [ha] at hf
  rcases hf.cases with ⟨h1, -⟩ | ⟨m, k, l, h1, -⟩ | ⟨S', c', x, v, k, T', l, h1, -⟩ | ⟨S', c', k, T', l, h1, -⟩ <;> cases h1

theorem AllDone.run {n : Nat} {G : Comms C} {res : Nat → R} {s : State C V R} (h : AllDone n res s) (sync : Bool) (sched : List Nat) :
    Coll.run n G sync s sched = s := by
  induction sched with
  | nil => rfl
  | cons r sched ih =>
    have : Coll.step n G sync s r = s := by
      by_cases hr : r < n
      · simp [Coll.step, hr, h r hr]
      · simp [Coll.step, hr]
    simpa [Coll.run, this] using ih

theorem run_append (n : Nat) (G : Comms C) (sync : Bool) (s : State C V R) (a b : List Nat) : Coll.run n G sync s (a ++ b) = Coll.run n G sync (Coll.run n G sync s a) b := by
  simp [run]

/-- A round in which every process gets its turn brings some process closer to its end. -/
theorem Inv.round {n : Nat} {G : Comms C} (hG : ∀ c, G.root c < n → G.mem c (G.root c) = true) (hroot : ∀ c r, r < n → G.mem c r = true → G.root c < n) {T : List (C × Option V)} {res : Nat → R} {all : Nat → List String}
    (sync : Bool) {s : State C V R} {past rest : Nat → List (C × Option V)} {rem : Nat → List (Option String)} (h : Inv n G T res all s past rest rem)
    (hd : ¬ AllDone n res s) (round : List Nat) (hround : ∀ r, r < n → r ∈ round) :
    ∃ past' rest' rem', Inv n G T res all (Coll.run n G sync s round) past' rest' rem' ∧
      (∑ q ∈ Finset.range n, (rem' q).length) + 1 ≤ ∑ q ∈ Finset.range n, (rem q).length := by
  obtain ⟨r0, hr0, hne⟩ := h.progress hG hroot sync hd
  have hmem := hround r0 hr0
  clear hround
  induction round with
  | nil => cases hmem
  | cons r round ih =>
    rcases h.step hG hroot sync r with h' | ⟨p', r', m', h', hs⟩
    · rcases List.mem_cons.1 hmem with rfl | hmem
      · exact absurd h' hne
      · obtain ⟨p'', r'', m'', h'', hs'⟩ := ih hmem
        refine ⟨p'', r'', m'', ?_, hs'⟩
        simpa [Coll.run, h'] using h''
    · obtain ⟨p'', r'', m'', h'', hs'⟩ := h'.run hG hroot sync round
      exact ⟨p'', r'', m'', h'', by omega⟩

/-- Fair executions end. -/
theorem run_fair {n : Nat} {G : Comms C} (hG : ∀ c, G.root c < n → G.mem c (G.root c) = true) (hroot : ∀ c r, r < n → G.mem c r = true → G.root c < n) {T : List (C × Option V)} {res : Nat → R}
    {p : Nat → Prog C V R} {len : Nat → List (Option String)} (h : ∀ r, r < n → Follows G r (p r) T (res r) (len r)) (sync : Bool) (rounds : List (List Nat))
    (hrounds : ∀ round ∈ rounds, ∀ r, r < n → r ∈ round) (hlen : (∑ r ∈ Finset.range n, (len r).length) ≤ rounds.length) :
    AllDone n res (Coll.run n G sync (init p) rounds.flatten) := by
  suffices H : ∀ (s : State C V R) (past rest : Nat → List (C × Option V)) (rem : Nat → List (Option String)), Inv n G T res (fun r => (len r).reduceOption) s past rest rem →
      (∑ r ∈ Finset.range n, (rem r).length) ≤ rounds.length → AllDone n res (Coll.run n G sync s rounds.flatten) from H _ _ _ _ (Inv.init h) hlen
  intro s past rest rem hi hl
  clear hlen h
  induction rounds generalizing s past rest rem with
  | nil =>
    by_contra hd
    obtain ⟨r0, hr0, hne⟩ := hi.progress hG hroot sync hd
    rcases hi.step hG hroot sync r0 with h' | ⟨p', r', m', h', hs⟩
    · exact hne h'
    · simp at hl
      have : (∑ q ∈ Finset.range n, (rem q).length) = 0 := by
        apply Finset.sum_eq_zero
        intro q hq
        simp [hl q (Finset.mem_range.1 hq)]
      omega
  | cons round rounds ih =>
    rw [List.flatten_cons, run_append]
    by_cases hd : AllDone n res s
    · rw [hd.run, hd.run]
      exact hd
    · obtain ⟨p', r', m', h', hs⟩ := hi.round hG hroot sync hd round (hrounds round (by simp))
      refine ih (fun rd hrd => hrounds rd (by simp [hrd])) _ p' r' m' h' ?_
      simp only [List.length_cons] at hl
      omega

/-- What a process has printed in the end. -/
theorem run_printed {n : Nat} {G : Comms C} (hG : ∀ c, G.root c < n → G.mem c (G.root c) = true) (hroot : ∀ c r, r < n → G.mem c r = true → G.root c < n) {T : List (C × Option V)} {res : Nat → R}
    {p : Nat → Prog C V R} {len : Nat → List (Option String)} (h : ∀ r, r < n → Follows G r (p r) T (res r) (len r)) (sync : Bool) (sched : List Nat) (r : Nat)
    (hr : r < n) : printed (Coll.run n G sync (init p) sched) r <+: (len r).reduceOption ∧
      (AllDone n res (Coll.run n G sync (init p) sched) → printed (Coll.run n G sync (init p) sched) r = (len r).reduceOption) := by
  obtain ⟨past, rest, rem, hi, -⟩ := (Inv.init h).run hG hroot sync sched
  have ho := hi.out r hr
  refine ⟨⟨_, ho⟩, fun hd => ?_⟩
  have hf := hi.follows r hr
  rw [hd r hr] at hf
  have : ∀ (T : List (C × Option V)) (b : R) (l : List (Option String)), Follows G r (.ret (res r) : Prog C V R) T b l → l = [] := by
    intro T b l hf
    generalize hp : (.ret (res r) : Prog C V R) = q at hf
    induction hf with
    | ret => rfl
    | skip _ _ ih => exact ih hp
    | print => cases hp
    | bcast => cases hp
    | barrier => cases hp
  rw [this _ _ _ hf] at ho
  simpa [List.reduceOption] using ho

/-! ## Barriers -/

/-- A process that has called an operation stays there until it passes it. -/
theorem arrived_step (n : Nat) (G : Comms C) (sync : Bool) (s : State C V R) (q : Nat) (c : C) (m : Nat) (bar : Bool) (r : Nat)
    (h : arrived s c m bar r = true) : arrived (Coll.step n G sync s q) c m bar r = true := by
  have hkeep : ∀ (c' : C) (k : Prog C V R) (msg : Option (Option V)), (q = r → s.cnt c r = m → c' = c) →
      arrived (Coll.pass s c' q k msg) c m bar r = true := by
    intro c' k msg hc
    by_cases e : q = r
    · subst e
      by_cases hm : m < s.cnt c q
      · simp only [arrived, Coll.pass, Bool.or_eq_true, decide_eq_true_eq]
        left
        by_cases e' : c = c'
        · subst e'
          simp
          omega
        · simp [e', hm]
      · have hm' : s.cnt c q = m := by
          simp only [arrived, Bool.or_eq_true, Bool.and_eq_true, decide_eq_true_eq] at h
          rcases h with h | h
          · exact absurd h hm
          · exact h.1
        obtain rfl := hc rfl hm'
        simp [arrived, Coll.pass, hm']
    · have e' : ¬ r = q := fun h => e h.symm
      simpa [arrived, Coll.pass, e'] using h
  have hhead : q = r → s.cnt c r = m → (∃ v k, s.prog q = .bcast c v k) ∨ ∃ k, s.prog q = .barrier c k := by
    rintro rfl hm
    simp only [arrived, hm, lt_irrefl, decide_false, Bool.false_or, decide_true, Bool.true_and] at h
    cases hp : s.prog q <;> simp [hp] at h ⊢
    · exact h.2
    · exact h.2
  unfold Coll.step
  split_ifs with hq
  swap
  · exact h
  split
  · exact h
  · exact h
  · rename_i m' k hp
    by_cases e : r = q
    · subst e
      rw [arrived, Bool.or_eq_true] at h ⊢
      rcases h with h | h
      · exact Or.inl h
      · simp [hp] at h
    · simpa [arrived, e] using h
  · rename_i c' v k hp
    have hc : q = r → s.cnt c r = m → c' = c := by
      intro e hm
      rcases hhead e hm with ⟨v', k', h'⟩ | ⟨k', h'⟩ <;> rw [hp] at h' <;> cases h'
      rfl
    split_ifs
    · exact hkeep c' _ _ hc
    · exact h
    · split
      · exact hkeep c' _ _ hc
      · exact h
    · exact h
  · rename_i c' k hp
    have hc : q = r → s.cnt c r = m → c' = c := by
      intro e hm
      rcases hhead e hm with ⟨v', k', h'⟩ | ⟨k', h'⟩ <;> rw [hp] at h' <;> cases h'
      rfl
    split_ifs
    · exact hkeep c' _ _ hc
    · exact hkeep c' _ _ hc
    · exact h

/-- No process passes a barrier before all processes have called it. -/
theorem run_barrier {n : Nat} {G : Comms C} (hG : ∀ c, G.root c < n → G.mem c (G.root c) = true) (hroot : ∀ c r, r < n → G.mem c r = true → G.root c < n) {T : List (C × Option V)} {res : Nat → R}
    {p : Nat → Prog C V R} {len : Nat → List (Option String)} (h : ∀ r, r < n → Follows G r (p r) T (res r) (len r)) (sync : Bool) (sched : List Nat)
    (c : C) (m : Nat) (hm : (entries T c)[m]? = some none) (r : Nat) (hr : r < n) (hc : G.mem c r = true)
    (hpass : m < (Coll.run n G sync (init p) sched).cnt c r) (q : Nat) (hq : q < n) (hcq : G.mem c q = true) :
    arrived (Coll.run n G sync (init p) sched) c m true q = true := by
  suffices H : ∀ (sched : List Nat) (s : State C V R) (past rest : Nat → List (C × Option V)) (rem : Nat → List (Option String)) (all : Nat → List String),
      Inv n G T res all s past rest rem → (∀ r, r < n → G.mem c r = true → m < s.cnt c r → arrived s c m true q = true) →
      ∀ r, r < n → G.mem c r = true → m < (Coll.run n G sync s sched).cnt c r → arrived (Coll.run n G sync s sched) c m true q = true from
    H sched _ _ _ _ _ (Inv.init h) (fun r _ _ hlt => by simp [init] at hlt) r hr hc hpass
  clear hpass hc hr r h sched
  intro sched
  induction sched with
  | nil =>
    intro s past rest rem all _ hs r hr hc hlt
    exact hs r hr hc hlt
  | cons r' sched ih =>
    intro s past rest rem all hi hs
    rcases hi.step hG hroot sync r' with h' | ⟨past', rest', rem', hi', -⟩
    · have := ih s past rest rem all hi hs
      simpa [Coll.run, h'] using this
    refine ih (Coll.step n G sync s r') past' rest' rem' all hi' ?_
    intro r hr hc hlt
    by_cases hold : m < s.cnt c r
    · exact arrived_step n G sync s r' c m true q (hs r hr hc hold)
    · -- passed in this step
      have hpass : ∀ (c' : C) (k : Prog C V R) (msg : Option (Option V)), Coll.step n G sync s r' = Coll.pass s c' r' k msg →
          c' = c ∧ r' = r ∧ s.cnt c r = m := by
        intro c' k msg he
        rw [he] at hlt
        simp only [Coll.pass] at hlt
        by_cases e : c = c' ∧ r = r'
        · obtain ⟨rfl, rfl⟩ := e
          simp at hlt
          exact ⟨rfl, rfl, by omega⟩
        · rw [if_neg e] at hlt
          exact absurd hlt hold
      by_cases hr' : r' < n
      swap
      · simp only [Coll.step, hr', if_false] at hlt
        exact absurd hlt hold
      rcases (hi.follows r' hr').cases with ⟨h1, h2⟩ | ⟨m', k, l, h1, h2, h3⟩ | ⟨S, c', x, v, k, T', l, h1, h2, h3, h4, h5, h6, h7⟩ |
        ⟨S, c', k, T', l, h1, h2, h3, h4, h5, h6⟩
      · simp only [Coll.step, hr', h1, if_true] at hlt
        exact absurd hlt hold
      · simp only [Coll.step, hr', h1, if_true] at hlt
        exact absurd hlt hold
      · -- a broadcast is no barrier
        exfalso
        have hcc : c' = c ∧ r' = r ∧ s.cnt c r = m := by
          by_cases e : r' = G.root c'
          · by_cases ha : (!sync || allArrived n G s c' (s.cnt c' r') false) = true
            · refine hpass c' (k v) (some (some v)) ?_
              simp only [Coll.step, hr', h1, h4, ha, if_true]
              rw [if_pos e]
            · exfalso
              simp only [Coll.step, hr', h1, h4, ha, if_true] at hlt
              rw [if_pos e] at hlt
              simp at hlt
              exact absurd hlt hold
          · cases hmsg : (s.msgs c')[s.cnt c' r']? with
            | none =>
              exfalso
              simp only [Coll.step, hr', h1, h4, hmsg, if_true] at hlt
              rw [if_neg e] at hlt
              exact absurd hlt hold
            | some z =>
              cases z with
              | none =>
                exfalso
                simp only [Coll.step, hr', h1, h4, hmsg, if_true] at hlt
                rw [if_neg e] at hlt
                exact absurd hlt hold
              | some z =>
                refine hpass c' (k z) none ?_
                simp only [Coll.step, hr', h1, h4, hmsg, if_true]
                rw [if_neg e]
        obtain ⟨rfl, rfl, hcnt⟩ := hcc
        rw [hi.cnt r' c' hr' h4] at hcnt
        rw [← hi.split r' hr', h2, entries_append, entries_append, entries_none G r' c' h4 S h3] at hm
        subst hcnt
        simp [entries] at hm
      · have ha : (G.mem c' r' && allArrived n G s c' (s.cnt c' r') true) = true := by
          by_contra hcon
          simp only [Coll.step, hr', h1, hcon, if_true] at hlt
          exact absurd hlt hold
        obtain ⟨rfl, rfl, hcnt⟩ := hpass c' k (if r' = G.root c' then some none else none) (by
          simp only [Coll.step, hr', h1, ha, if_true])
        rw [h4, Bool.true_and, hcnt] at ha
        simp only [allArrived, List.all_eq_true, List.mem_range] at ha
        have := ha q hq
        rw [hcq] at this
        exact arrived_step n G sync s r' c' m true q (by simpa using this)

end

end Verif.MPI.Coll
