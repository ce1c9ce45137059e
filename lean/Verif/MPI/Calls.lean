import Mathlib.Data.List.Dedup
import Mathlib.Tactic.IntervalCases
import Verif.MPI.Collective
import Verif.MPI.Props
import Verif.Bravais.Model

/-!
# Property C161: calls made by all processes never block and give all processes the same data

Functions of `elphmod.MPI` and models read from files, executed by any number of processes in any order.
-/

namespace Verif.MPI.Coll

/-- Communicators: `comm`, `node`, and `images` of `shm_split`. -/
inductive CM where
  | world
  | node (j : Nat)
  | images (i : Nat)
  deriving DecidableEq

/-- `elphmod/MPI.py` 83 and 178-183: members and first processes. For communicators without members, the root is `n`, i.e., none of the processes. -/
def comms (n : Nat) (machine : Nat → Nat) : Comms CM where
  mem c r := match c with
    | .world => true
    | .node j => machine r == j
    | .images i => nodeRank true machine r == i
  root c := match c with
    | .world => 0
    | .node j => ((List.range n).find? fun r => machine r == j).getD n
    | .images i => ((List.range n).find? fun r => nodeRank true machine r == i).getD n

/-- Objects sent between processes: `None`, any Python object, the shape of an array, its type, its content. -/
inductive Obj (α : Type) where
  | nothing
  | any (a : α)
  | shape (l : List Nat)
  | dtype (d : String)
  | data (l : List α)

/-- Outcome of reading a file: `FileNotFoundError`/`IOError`, success, any other exception (e.g., `ValueError` or `UnpicklingError` for damaged files). -/
inductive File (β : Type) where
  | missing
  | ok (b : β)
  | broken

/-- Arrays with shape, type and content. -/
structure Arr (α : Type) where
  shape : List Nat
  dtype : String
  data : List α

/-- `elphmod/MPI.py` 350: `np.empty(0)`. -/
def Arr.empty {α : Type} : Arr α := ⟨[0], "float64", []⟩

variable {α : Type}

/-- `elphmod/MPI.py` 380-394 (`info` without `error`), as process `r`. -/
def info {R : Type} (msg : String) (r : Nat) (k : Prog CM (Obj α) R) : Prog CM (Obj α) R :=
  .barrier .world (if r = 0 then .print msg k else k)

/-- `elphmod/MPI.py` 380-394 (`info` with `error=True`): the process ends with result `exited`. -/
def infoError {R : Type} (msg : String) (r : Nat) (exited : R) : Prog CM (Obj α) R :=
  .barrier .world (if r = 0 then .print ("Error: " ++ msg) (.ret exited) else .ret exited)

/-- `elphmod/MPI.py` 288-311 (`Buffer.get`); `named`: is there a file name? -/
def bufferGet (named : Bool) (file : File α) (r : Nat) : Prog CM (Obj α) (Obj α) :=
  if !named then .ret .nothing else
  if r = 0 then
    match file with
    | .missing => .bcast .world .nothing .ret
    | .ok a => .bcast .world (.any a) .ret
    | .broken => .raise
  else .bcast .world .nothing .ret

/-- `elphmod/MPI.py` 341-354: what the first process reads in `load`. -/
def readArray : File (Arr α) → Option (Arr α)
  | .missing => some .empty
  | .ok a => some a
  | .broken => none

/-- The array a process sets up from the received shape, type and content. -/
def assemble : Obj α → Obj α → Obj α → Option (Arr α)
  | .shape s, .dtype d, .data l => some ⟨s, d, l⟩
  | _, _, _ => none

/-- `elphmod/MPI.py` 341-359 and 372-378 (`load` with `shared_memory=False`). -/
def load (file : File (Arr α)) (r : Nat) : Prog CM (Obj α) (Arr α) :=
  if r = 0 then
    match readArray file with
    | none => .raise
    | some a => .bcast .world (.shape a.shape) fun _ => .bcast .world (.dtype a.dtype) fun _ => .bcast .world (.data a.data) fun _ => .ret a
  else
    .bcast .world .nothing fun s => .bcast .world .nothing fun d => .bcast .world .nothing fun l =>
      match assemble s d l with
      | some a => .ret a
      | none => .raise

/-- Number of processes on the node of process `r`. -/
def nodeSize (n : Nat) (machine : Nat → Nat) (r : Nat) : Nat := ((List.range n).filter fun q => machine q == machine r).length

/-- `elphmod/MPI.py` 169-185 and 214-242 (`shared_array`): two splits, then the allocation, which involves all processes of a node with more than one process.
With `impl = false`, shared memory is not implemented (lines 169-173). -/
def sharedArray {R : Type} (impl : Bool) (n : Nat) (machine : Nat → Nat) (r : Nat) (k : Prog CM (Obj α) R) : Prog CM (Obj α) R :=
  if impl then
    .barrier .world <| .barrier .world <|
      if 1 < nodeSize n machine r then .barrier (.node (machine r)) k else k
  else if 1 < n then info "Shared memory not implemented" r k
  else k

/-- `elphmod/MPI.py` 361-371: content of the array. Returns what the process has written to the memory (of its node), if it is the one to write. -/
def fill (impl : Bool) (machine : Nat → Nat) (r : Nat) (v : Obj α) : Prog CM (Obj α) (Option (Obj α)) :=
  if impl then
    if nodeRank true machine r = 0 then .bcast (.images 0) v fun x => .barrier .world (.ret (some x)) else .barrier .world (.ret none)
  else .bcast .world v fun x => .barrier .world (.ret (some x))

/-- `elphmod/MPI.py` 341-371 (`load` with `shared_memory=True`). -/
def loadShared (impl : Bool) (n : Nat) (machine : Nat → Nat) (file : File (Arr α)) (r : Nat) :
    Prog CM (Obj α) (Obj α × Obj α × Option (Obj α)) :=
  if r = 0 then
    match readArray file with
    | none => .raise
    | some a => .bcast .world (.shape a.shape) fun s => .bcast .world (.dtype a.dtype) fun d =>
        sharedArray impl n machine r <| (fill impl machine r (.data a.data)).bind fun x => .ret (s, d, x)
  else
    .bcast .world .nothing fun s => .bcast .world .nothing fun d =>
      sharedArray impl n machine r <| (fill impl machine r .nothing).bind fun x => .ret (s, d, x)

/-- One broadcast after the other. -/
def bcasts {R : Type} : List (Obj α) → (List (Obj α) → Prog CM (Obj α) R) → Prog CM (Obj α) R
  | [], k => k []
  | v :: vs, k => .bcast .world v fun x => bcasts vs fun xs => k (x :: xs)

/-- What the first process finds when it reads the force constants: data, an exception, or an unknown Bravais lattice, in which case `primitives`
(`elphmod/bravais.py` 280) calls `info` with `error=True`. -/
inductive PhFile (α : Type) where
  | ok (vs : Fin 14 → Obj α)
  | broken
  | lattice (ibrav : Int)

/-- `elphmod/ph.py` 1153-1154: the lattice vectors are obtained from `primitives` for nonzero `ibrav`, which may be unknown. -/
noncomputable def readFlfrc (ibrav : Int) (celldm : Fin 6 → ℝ) (vs : Fin 14 → Obj α) : PhFile α :=
  if ibrav = 0 then .ok vs
  else match (Verif.Bravais.primitives ibrav 1 1 1 1 0 0 0 (some celldm) true none).1 with
    | some _ => .ok vs
    | none => .lattice ibrav

/-- `elphmod/ph.py` 208-279 (beginning of `Model.__init__`): only the first process reads; then 14 objects are broadcast. -/
def phInit (file : PhFile α) (own : Fin 14 → Obj α) (r : Nat) : Prog CM (Obj α) (Option (List (Obj α))) :=
  if r = 0 then
    match file with
    | .ok vs => bcasts (List.ofFn vs) fun xs => .ret (some xs)
    | .broken => .raise
    | .lattice _ => infoError "Bravais lattice unknown!" r none
  else bcasts (List.ofFn own) fun xs => .ret (some xs)

/-! ## Scripts -/

/-- What all processes call. -/
inductive Call (α : Type) where
  | info (msg : String)
  | error (msg : String)
  | get (file : File α)
  | load (file : File (Arr α))

/-- What the call returns. -/
inductive Value (α : Type) where
  | obj (x : Obj α)
  | arr (a : Arr α)

/-- Program of process `r`; the result is `none` after `sys.exit`. -/
def script : List (Call α) → Nat → Prog CM (Obj α) (Option (List (Value α)))
  | [], _ => .ret (some [])
  | .info msg :: cs, r => info msg r (script cs r)
  | .error msg :: _, r => infoError msg r none
  | .get file :: cs, r => (bufferGet true file r).bind fun x => (script cs r).bind fun xs => .ret (xs.map (.obj x :: ·))
  | .load file :: cs, r => (load file r).bind fun a => (script cs r).bind fun xs => .ret (xs.map (.arr a :: ·))

/-- What a script should return on all processes. -/
def expected : List (Call α) → Option (List (Value α))
  | [] => some []
  | .info _ :: cs => expected cs
  | .error _ :: _ => none
  | .get (.ok a) :: cs => (expected cs).map (.obj (.any a) :: ·)
  | .get _ :: cs => (expected cs).map (.obj .nothing :: ·)
  | .load (.ok a) :: cs => (expected cs).map (.arr a :: ·)
  | .load _ :: cs => (expected cs).map (.arr ⟨[0], "float64", []⟩ :: ·)

/-- What should appear on the screen. -/
def shown : List (Call α) → List String
  | [] => []
  | .info msg :: cs => msg :: shown cs
  | .error msg :: _ => ["Error: " ++ msg]
  | _ :: cs => shown cs

/-- No damaged files. -/
def Readable : Call α → Prop
  | .get .broken => False
  | .load .broken => False
  | _ => True

/-! ## Lemmas -/

theorem comms_root (n : Nat) (machine : Nat → Nat) (hn : 0 < n) (c : CM) (hc : (comms n machine).root c < n) :
    (comms n machine).mem c ((comms n machine).root c) = true := by
  cases c with
  | world => rfl
  | node j =>
    simp only [comms] at hc ⊢
    cases h : (List.range n).find? fun r => machine r == j with
    | none => simp [h] at hc
    | some r => simpa [h] using List.find?_some h
  | images j =>
    simp only [comms] at hc ⊢
    cases h : (List.range n).find? fun r => nodeRank true machine r == j with
    | none => simp [h] at hc
    | some r => simpa [h] using List.find?_some h

theorem comms_lt (n : Nat) (machine : Nat → Nat) (hn : 0 < n) (c : CM) (r : Nat) (hr : r < n) (hc : (comms n machine).mem c r = true) :
    (comms n machine).root c < n := by
  have key : ∀ f : Nat → Bool, f r = true → ((List.range n).find? f).getD n < n := by
    intro f hf
    cases h : (List.range n).find? f with
    | none =>
      rw [List.find?_eq_none] at h
      exact absurd hf (h r (List.mem_range.2 hr))
    | some q => simpa using List.mem_of_find?_eq_some h
  cases c with
  | world => exact hn
  | node j => exact key _ hc
  | images j => exact key _ hc

theorem comms_images (n : Nat) (machine : Nat → Nat) (hn : 0 < n) : (comms n machine).root (.images 0) = 0 := by
  obtain ⟨m, rfl⟩ : ∃ m, n = m + 1 := ⟨n - 1, by omega⟩
  simp [comms, List.range_succ_eq_map, nodeRank_zero]

theorem follows_info {R : Type} {n : Nat} {machine : Nat → Nat} {r : Nat} {msg : String} {k : Prog CM (Obj α) R} {T : List (CM × Option (Obj α))} {a : R}
    {ms : List (Option String)} (h : Follows (comms n machine) r k T a ms) :
    Follows (comms n machine) r (info msg r k) ((.world, none) :: T) a (none :: ((if r = 0 then [some msg] else []) ++ ms)) := by
  refine Follows.barrier rfl ?_
  split_ifs
  · exact Follows.print h
  · exact h

theorem follows_infoError {R : Type} {n : Nat} {machine : Nat → Nat} {r : Nat} {msg : String} {a : R} :
    Follows (comms n machine) r (infoError msg r a : Prog CM (Obj α) R) [(.world, none)] a
      (none :: (if r = 0 then [some ("Error: " ++ msg)] else [])) := by
  refine Follows.barrier rfl ?_
  split_ifs
  · exact Follows.print (Follows.ret a)
  · exact Follows.ret a

/-- What `Buffer.get` should return. -/
def got : File α → Obj α
  | .ok a => .any a
  | _ => .nothing

theorem follows_get {n : Nat} {machine : Nat → Nat} {r : Nat} (file : File α) (hf : file ≠ .broken) :
    Follows (comms n machine) r (bufferGet true file r) [(.world, some (got file))] (got file) [none] := by
  unfold bufferGet
  simp only [Bool.not_true, Bool.false_eq_true, if_false]
  split_ifs with hr
  · cases file with
    | missing => exact Follows.bcast rfl (fun _ => rfl) (Follows.ret _)
    | ok a => exact Follows.bcast rfl (fun _ => rfl) (Follows.ret _)
    | broken => exact absurd rfl hf
  · exact Follows.bcast rfl (fun h => absurd h hr) (Follows.ret _)

theorem follows_load {n : Nat} {machine : Nat → Nat} {r : Nat} (file : File (Arr α)) (a : Arr α) (ha : readArray file = some a) :
    Follows (comms n machine) r (load file r)
      [(.world, some (.shape a.shape)), (.world, some (.dtype a.dtype)), (.world, some (.data a.data))] a [none, none, none] := by
  unfold load
  split_ifs with hr
  · rw [ha]
    exact Follows.bcast rfl (fun _ => rfl) (Follows.bcast rfl (fun _ => rfl) (Follows.bcast rfl (fun _ => rfl) (Follows.ret _)))
  · exact Follows.bcast rfl (fun h => absurd h hr) (Follows.bcast rfl (fun h => absurd h hr) (Follows.bcast rfl (fun h => absurd h hr) (Follows.ret _)))

theorem follows_bcasts {R : Type} {n : Nat} {machine : Nat → Nat} {r : Nat} (own vs : List (Obj α)) (hlen : own.length = vs.length) (hr : r = 0 → own = vs)
    (k : List (Obj α) → Prog CM (Obj α) R) {T : List (CM × Option (Obj α))} {a : R} {ms : List (Option String)}
    (h : Follows (comms n machine) r (k vs) T a ms) :
    Follows (comms n machine) r (bcasts own k) (vs.map (fun v => (.world, some v)) ++ T) a (List.replicate vs.length none ++ ms) := by
  induction vs generalizing own k with
  | nil =>
    obtain rfl := List.eq_nil_of_length_eq_zero hlen
    exact h
  | cons v vs ih =>
    cases own with
    | nil => simp at hlen
    | cons o own =>
      refine Follows.bcast rfl (fun h => ?_) (ih own (by simpa using hlen) (fun h => ?_) _ h)
      · exact (List.cons.inj (hr h)).1
      · exact (List.cons.inj (hr h)).2

/-- A script whose files can be read is followed by all processes. -/
theorem follows_script (n : Nat) (machine : Nat → Nat) (cs : List (Call α)) (hcs : ∀ c ∈ cs, Readable c) :
    ∃ T, ∀ r, ∃ ms, Follows (comms n machine) r (script cs r) T (expected cs) ms ∧ ms.reduceOption = (if r = 0 then shown cs else []) ∧
      ms.length ≤ 3 * cs.length := by
  induction cs with
  | nil => exact ⟨[], fun r => ⟨[], Follows.ret _, by simp [shown, List.reduceOption], by simp⟩⟩
  | cons c cs ih =>
    obtain ⟨T, hT⟩ := ih fun c hc => hcs c (by simp [hc])
    have hread := hcs c (by simp)
    cases c with
    | info msg =>
      refine ⟨(.world, none) :: T, fun r => ?_⟩
      obtain ⟨ms, h1, h2, h3⟩ := hT r
      refine ⟨_, follows_info h1, ?_, ?_⟩
      · by_cases hr : r = 0 <;> simp [hr, List.reduceOption, shown] at h2 ⊢ <;> exact h2
      · by_cases hr : r = 0 <;> simp [hr] <;> omega
    | error msg =>
      refine ⟨_, fun r => ⟨_, follows_infoError, ?_, ?_⟩⟩
      · by_cases hr : r = 0 <;> simp [hr, List.reduceOption, shown]
      · by_cases hr : r = 0 <;> simp [hr] <;> omega
    | get file =>
      refine ⟨[(.world, some (got file))] ++ (T ++ []), fun r => ?_⟩
      obtain ⟨ms, h1, h2, h3⟩ := hT r
      have hb : file ≠ .broken := by
        rintro rfl
        exact hread
      have he : expected (.get file :: cs) = (expected cs).map (.obj (got file) :: ·) := by
        cases file <;> rfl
      rw [he]
      refine ⟨_, (follows_get file hb).bind (h1.bind (Follows.ret _)), ?_, ?_⟩
      · by_cases hr : r = 0 <;> simp [hr, List.reduceOption, shown] at h2 ⊢ <;> exact h2
      · simp; omega
    | load file =>
      refine ⟨?_, fun r => ?_⟩
      · exact (match readArray file with
          | some a => [(.world, some (.shape a.shape)), (.world, some (.dtype a.dtype)), (.world, some (.data a.data))]
          | none => []) ++ (T ++ [])
      obtain ⟨ms, h1, h2, h3⟩ := hT r
      obtain ⟨a, ha, he⟩ : ∃ a, readArray file = some a ∧ expected (.load file :: cs) = (expected cs).map (.arr a :: ·) := by
        cases file with
        | missing => exact ⟨_, rfl, rfl⟩
        | ok a => exact ⟨_, rfl, rfl⟩
        | broken => exact absurd hread (by simp [Readable])
      rw [he, ha]
      refine ⟨_, (follows_load file a ha).bind (h1.bind (Follows.ret _)), ?_, ?_⟩
      · by_cases hr : r = 0 <;> simp [hr, List.reduceOption, shown] at h2 ⊢ <;> exact h2
      · simp; omega

/-! ## C161 -/

/-- C161. Any sequence of calls with readable files, any number of processes on any nodes, any schedule: whatever a process returns is what was in the files,
no process ends with an exception, and the first process shows the messages in order, the other processes nothing. -/
theorem C161_script (n : Nat) (hn : 0 < n) (machine : Nat → Nat) (sync : Bool) (cs : List (Call α)) (hcs : ∀ c ∈ cs, Readable c) (sched : List Nat) (r : Nat)
    (hr : r < n) :
    (∀ a, (run n (comms n machine) sync (init (script cs)) sched).prog r = .ret a → a = expected cs) ∧
      (run n (comms n machine) sync (init (script cs)) sched).prog r ≠ .raise ∧
      printed (run n (comms n machine) sync (init (script cs)) sched) r <+: (if r = 0 then shown cs else []) := by
  obtain ⟨T, hT⟩ := follows_script n machine cs hcs
  choose ms h1 h2 h3 using hT
  have hG := comms_root n machine hn
  have hroot := comms_lt n machine hn
  refine ⟨run_ret hG hroot (fun r _ => h1 r) sync sched r hr, run_no_raise hG hroot (fun r _ => h1 r) sync sched r hr, ?_⟩
  rw [← h2 r]
  exact (run_printed hG hroot (fun r _ => h1 r) sync sched r hr).1

example := C161_script 3 (by omega) (· / 2) false [.info "Read data", .get (.ok 5), .load .missing] (by intro c hc; fin_cases hc <;> trivial)
  [2, 0, 0, 1, 1, 0, 2] 1 (by omega)

/-- C161 (no deadlock). After a bounded number of rounds in which each process gets a turn, in whatever order and however often, all processes have returned and
all messages have been shown exactly once. -/
theorem C161_script_ends (n : Nat) (hn : 0 < n) (machine : Nat → Nat) (sync : Bool) (cs : List (Call α)) (hcs : ∀ c ∈ cs, Readable c)
    (rounds : List (List Nat)) (hrounds : ∀ round ∈ rounds, ∀ r, r < n → r ∈ round) (hlen : 3 * n * cs.length ≤ rounds.length) :
    (∀ r, r < n → (run n (comms n machine) sync (init (script cs)) rounds.flatten).prog r = .ret (expected cs)) ∧
      ∀ r, r < n → printed (run n (comms n machine) sync (init (script cs)) rounds.flatten) r = if r = 0 then shown cs else [] := by
  obtain ⟨T, hT⟩ := follows_script n machine cs hcs
  choose ms h1 h2 h3 using hT
  have hG := comms_root n machine hn
  have hroot := comms_lt n machine hn
  have hsum : (∑ r ∈ Finset.range n, (ms r).length) ≤ rounds.length := by
    refine le_trans (Finset.sum_le_sum fun r _ => h3 r) ?_
    simp only [Finset.sum_const, Finset.card_range, smul_eq_mul]
    calc n * (3 * cs.length) = 3 * n * cs.length := by ring
      _ ≤ _ := hlen
  have hd := run_fair hG hroot (fun r _ => h1 r) sync rounds hrounds hsum
  refine ⟨hd, fun r hr => ?_⟩
  rw [← h2 r]
  exact (run_printed hG hroot (fun r _ => h1 r) sync _ r hr).2 hd

example := C161_script_ends 3 (by omega) (· / 2) true
  [.info "Read data", .get (.ok 5), .load (.ok ⟨[2], "int64", [1, 2]⟩), .get .missing, .error "Stop"]
  (by intro c hc; fin_cases hc <;> trivial) (List.replicate 60 [2, 0, 1])
  (by intro rd hrd r hr; rw [List.eq_of_mem_replicate hrd]; interval_cases r <;> simp) (by simp)

/-- All processes are done and agree, for a schedule that favors the last process. -/
example : ((List.range 3).map fun r => ((run 3 (comms 3 (· / 2)) true (init (script [.info "Read data", .get (.ok 5), .info "Bye"]))
    ((List.replicate 9 [2, 2, 0, 1]).flatten)).prog r matches .ret _)) = [true, true, true] ∧
    (run 3 (comms 3 (· / 2)) true (init (script [.info "Read data", .get (.ok 5), .info "Bye"])) ((List.replicate 9 [2, 2, 0, 1]).flatten)).out =
      [(0, "Read data"), (0, "Bye")] := by decide

/-- C161 (messages). No process continues after `info`, and the message is not shown, before all processes have called it. Before, they may have
printed anything (`p`). -/
theorem C161_info_waits (n : Nat) (hn : 0 < n) (machine : Nat → Nat) (sync : Bool) (msg : String) (cs : List (Call α)) (hcs : ∀ c ∈ cs, Readable c)
    (p : Nat → Prog CM (Obj α) Unit) (hp : ∀ r, r < n → ∃ ms, Follows (comms n machine) r (p r) [] () ms)
    (sched : List Nat) (q : Nat) (hq : q < n)
    (hpassed : 0 < (run n (comms n machine) sync (init fun r => (p r).bind fun _ => script (.info msg :: cs) r) sched).cnt .world q)
    (r : Nat) (hr : r < n) :
    arrived (run n (comms n machine) sync (init fun r => (p r).bind fun _ => script (.info msg :: cs) r) sched) .world 0 true r = true := by
  obtain ⟨T, hT⟩ := follows_script n machine cs hcs
  choose ms h1 h2 h3 using hT
  have hG := comms_root n machine hn
  have hroot := comms_lt n machine hn
  have hp' : ∀ r, ∃ ms, r < n → Follows (comms n machine) r (p r) [] () ms := by
    intro r
    by_cases hr : r < n
    · obtain ⟨ms, h⟩ := hp r hr
      exact ⟨ms, fun _ => h⟩
    · exact ⟨[], fun h => absurd h hr⟩
  choose ms0 h0 using hp'
  exact run_barrier hG hroot (T := [] ++ ((.world, none) :: T)) (fun r hr => (h0 r hr).bind (follows_info (msg := msg) (h1 r))) sync sched .world 0
    (by simp [entries]) q hq rfl hpassed r hr rfl

/-- The third process prints twice before it calls `info`; the others wait for it. -/
example := C161_info_waits (α := ℕ) 3 (by omega) (fun _ => 0) true "Done" [] (by simp) (fun r => if r = 2 then .print "a" (.print "b" (.ret ())) else .ret ())
  (fun r _ => by
    by_cases hr : r = 2
    · exact ⟨_, by simpa [hr] using Follows.print (Follows.print (Follows.ret ()))⟩
    · exact ⟨_, by simpa [hr] using Follows.ret ()⟩) [0, 1, 2, 2, 2, 0, 1] 1 (by omega) (by decide) 2 (by omega)

/-! ## Shared memory -/

theorem follows_nodes {R : Type} {n : Nat} {machine : Nat → Nat} {r : Nat} {k : Prog CM (Obj α) R} {T : List (CM × Option (Obj α))} {a : R}
    {ms : List (Option String)} (h : Follows (comms n machine) r k T a ms) (L : List Nat) (hL : L.Nodup) :
    (machine r ∈ L → Follows (comms n machine) r (.barrier (.node (machine r)) k) (L.map (fun j => (.node j, none)) ++ T) a (none :: ms)) ∧
      (machine r ∉ L → Follows (comms n machine) r k (L.map (fun j => (.node j, none)) ++ T) a ms) := by
  induction L with
  | nil => exact ⟨by simp, fun _ => h⟩
  | cons j L ih =>
    obtain ⟨ih1, ih2⟩ := ih (List.nodup_cons.1 hL).2
    by_cases e : machine r = j
    · subst e
      exact ⟨fun _ => Follows.barrier (by simp [comms]) (ih2 (List.nodup_cons.1 hL).1), fun h => absurd (by simp) h⟩
    · have hm : (comms n machine).mem (.node j) r = false := by simp [comms, e]
      refine ⟨fun h => Follows.skip hm (ih1 ?_), fun h => Follows.skip hm (ih2 ?_)⟩
      · simpa [e] using h
      · intro h'
        exact h (by simp [h'])

/-- C161 (shared memory). Whatever the distribution of the processes over nodes, and with and without support for shared memory, loading a readable file ends
on all processes; all know shape and type, and the first process of each node has written the content. -/
theorem C161_load_shared (impl : Bool) (n : Nat) (hn : 0 < n) (machine : Nat → Nat) (sync : Bool) (file : File (Arr α)) (a : Arr α)
    (ha : readArray file = some a) (rounds : List (List Nat)) (hrounds : ∀ round ∈ rounds, ∀ r, r < n → r ∈ round)
    (hlen : 7 * n ≤ rounds.length) (r : Nat) (hr : r < n) :
    (run n (comms n machine) sync (init (loadShared impl n machine file)) rounds.flatten).prog r =
      .ret (.shape a.shape, .dtype a.dtype, if impl = true ∧ nodeRank true machine r ≠ 0 then none else some (.data a.data)) := by
  have hG := comms_root n machine hn
  have hroot := comms_lt n machine hn
  -- the last part
  have hfill : ∀ r, ∃ ms : List (Option String), ms.length ≤ 2 ∧ ∀ v, (r = 0 → v = .data a.data) → Follows (comms n machine) r (fill impl machine r v)
      ((if impl then [(.images 0, some (.data a.data))] else [(.world, some (.data a.data))]) ++ [(.world, none)])
      (if impl = true ∧ nodeRank true machine r ≠ 0 then none else some (.data a.data)) ms := by
    intro r
    cases impl with
    | true =>
      by_cases hnr : nodeRank true machine r = 0
      · refine ⟨[none, none], by simp, fun v hv => ?_⟩
        simp only [fill, hnr, if_true, ne_eq, not_true_eq_false, and_false, if_false]
        refine Follows.bcast (by simp [comms, hnr]) (fun h => hv ?_) (Follows.barrier rfl (Follows.ret _))
        rw [h, comms_images n machine hn]
      · refine ⟨[none], by simp, fun v _ => ?_⟩
        simp only [fill, hnr, if_true, if_false, ne_eq, not_false_eq_true, and_true]
        exact Follows.skip (by simp [comms, hnr]) (Follows.barrier rfl (Follows.ret _))
    | false =>
      refine ⟨[none, none], by simp, fun v hv => ?_⟩
      simp only [fill, Bool.false_eq_true, false_and, if_false]
      exact Follows.bcast rfl (fun h => hv h) (Follows.barrier rfl (Follows.ret _))
  -- the allocation
  let L : List Nat := ((List.range n).map machine).dedup.filter fun j => decide (1 < ((List.range n).filter fun q => machine q == j).length)
  have hL : L.Nodup := (List.nodup_dedup _).filter _
  have hmemL : ∀ r, r < n → (machine r ∈ L ↔ 1 < nodeSize n machine r) := by
    intro r hr
    simp only [L, List.mem_filter, List.mem_dedup, List.mem_map, List.mem_range, decide_eq_true_eq, nodeSize]
    exact ⟨fun h => h.2, fun h => ⟨⟨r, hr, rfl⟩, h⟩⟩
  have hshared : ∃ T0 : List (CM × Option (Obj α)), ∀ r, r < n → ∃ ms0 : List (Option String), ms0.length ≤ 3 ∧
      ∀ (k : Prog CM (Obj α) (Obj α × Obj α × Option (Obj α))) T b ms, Follows (comms n machine) r k T b ms →
        Follows (comms n machine) r (sharedArray impl n machine r k) (T0 ++ T) b (ms0 ++ ms) := by
    cases impl with
    | true =>
      refine ⟨(.world, none) :: (.world, none) :: L.map (fun j => (.node j, none)), fun r hr => ?_⟩
      by_cases hs : 1 < nodeSize n machine r
      · refine ⟨[none, none, none], by simp, fun k T b ms h => ?_⟩
        simp only [sharedArray, if_true, hs]
        exact Follows.barrier rfl (Follows.barrier rfl ((follows_nodes h L hL).1 ((hmemL r hr).2 hs)))
      · refine ⟨[none, none], by simp, fun k T b ms h => ?_⟩
        simp only [sharedArray, if_true, hs, if_false]
        exact Follows.barrier rfl (Follows.barrier rfl ((follows_nodes h L hL).2 (fun h' => hs ((hmemL r hr).1 h'))))
    | false =>
      by_cases h1 : 1 < n
      · refine ⟨[(.world, none)], fun r hr => ⟨none :: if r = 0 then [some "Shared memory not implemented"] else [], ?_, fun k T b ms h => ?_⟩⟩
        · split_ifs <;> simp
        · simp only [sharedArray, Bool.false_eq_true, if_false, h1, if_true]
          exact follows_info h
      · refine ⟨[], fun r hr => ⟨[], by simp, fun k T b ms h => ?_⟩⟩
        simpa [sharedArray, h1] using h
  obtain ⟨T0, hT0⟩ := hshared
  have hall : ∀ r, ∃ ms : List (Option String), ms.length ≤ 7 ∧ (r < n → Follows (comms n machine) r (loadShared impl n machine file r)
      ((.world, some (.shape a.shape)) :: (.world, some (.dtype a.dtype)) :: (T0 ++
        ((if impl then [(.images 0, some (.data a.data))] else [(.world, some (.data a.data))]) ++ [(.world, none)] ++ [])))
      (.shape a.shape, .dtype a.dtype, if impl = true ∧ nodeRank true machine r ≠ 0 then none else some (.data a.data)) ms) := by
    intro r
    by_cases hr : r < n
    swap
    · exact ⟨[], by simp, fun h => absurd h hr⟩
    obtain ⟨ms, hl, hf⟩ := hfill r
    obtain ⟨ms0, hl0, hs⟩ := hT0 r hr
    refine ⟨none :: none :: (ms0 ++ (ms ++ [])), by simp; omega, fun _ => ?_⟩
    unfold loadShared
    by_cases h0 : r = 0
    · rw [if_pos h0, ha]
      exact Follows.bcast rfl (fun _ => rfl) (Follows.bcast rfl (fun _ => rfl)
        (hs _ _ _ _ ((hf (.data a.data) fun _ => rfl).bind (f := fun x => .ret (Obj.shape a.shape, Obj.dtype a.dtype, x)) (Follows.ret _))))
    · rw [if_neg h0]
      exact Follows.bcast rfl (fun h => absurd h h0) (Follows.bcast rfl (fun h => absurd h h0)
        (hs _ _ _ _ ((hf .nothing fun h => absurd h h0).bind (f := fun x => .ret (Obj.shape a.shape, Obj.dtype a.dtype, x)) (Follows.ret _))))
  choose ms hms1 hms2 using hall
  refine run_fair hG hroot (fun r hr => hms2 r hr) sync rounds hrounds ?_ r hr
  refine le_trans (Finset.sum_le_sum fun r _ => hms1 r) ?_
  simpa [Nat.mul_comm] using hlen

example := C161_load_shared true 5 (by omega) (· / 2) true (.ok ⟨[2], "int64", [1, 2]⟩) ⟨[2], "int64", [1, 2]⟩ rfl (List.replicate 35 [4, 3, 2, 1, 0])
  (by intro rd hrd r hr; rw [List.eq_of_mem_replicate hrd]; interval_cases r <;> simp) (by simp) 4 (by omega)

/-! ## Models from files -/

/-- C161 (phonon models). If the first process can read the force constants, all processes get the same 14 objects. -/
theorem C161_ph (n : Nat) (hn : 0 < n) (machine : Nat → Nat) (sync : Bool) (vs : Fin 14 → Obj α) (own : Nat → Fin 14 → Obj α) (rounds : List (List Nat))
    (hrounds : ∀ round ∈ rounds, ∀ r, r < n → r ∈ round) (hlen : 14 * n ≤ rounds.length) (r : Nat) (hr : r < n) :
    (run n (comms n machine) sync (init fun r => phInit (.ok vs) (own r) r) rounds.flatten).prog r = .ret (some (List.ofFn vs)) := by
  have hG := comms_root n machine hn
  have hroot := comms_lt n machine hn
  have h : ∀ r, r < n → Follows (comms n machine) r (phInit (.ok vs) (own r) r) ((List.ofFn vs).map (fun v => (.world, some v)) ++ []) (some (List.ofFn vs))
      (List.replicate (List.ofFn vs).length none ++ []) := by
    intro r _
    unfold phInit
    split_ifs with h0
    · exact follows_bcasts _ _ rfl (fun _ => rfl) _ (Follows.ret _)
    · exact follows_bcasts _ _ (by simp) (fun h => absurd h h0) _ (Follows.ret _)
  refine run_fair hG hroot h sync rounds hrounds ?_ r hr
  simpa [Nat.mul_comm] using hlen

example := C161_ph 2 (by omega) id true (fun i => .any (i : ℕ)) (fun _ _ => .nothing) (List.replicate 28 [1, 0])
  (by intro rd hrd r hr; rw [List.eq_of_mem_replicate hrd]; interval_cases r <;> simp) (by simp) 1 (by omega)

/-! ## Violations -/

/-- If the first process has ended and the others wait for an object from it, nothing happens any more. -/
theorem stuck_ended {R : Type} (n : Nat) (machine : Nat → Nat) (sync : Bool) (p : Nat → Prog CM (Obj α) R) (h0 : p 0 = .raise)
    (hp : ∀ r, 0 < r → ∃ v k, p r = .bcast .world v k) (sched : List Nat) : run n (comms n machine) sync (init p) sched = init p := by
  induction sched with
  | nil => rfl
  | cons r sched ih =>
    have : step n (comms n machine) sync (init p) r = init p := by
      unfold step
      split_ifs with hr
      · rcases Nat.eq_zero_or_pos r with rfl | hpos
        · simp [init, h0]
        · obtain ⟨v, k, hk⟩ := hp r hpos
          have : r ≠ 0 := by omega
          simp [init, hk, comms, this]
      · rfl
    simpa [run, this] using ih

/-- If the first process waits in a barrier and the others for an object from it, nothing happens any more. -/
theorem stuck_mismatch {R : Type} (n : Nat) (hn : 1 < n) (machine : Nat → Nat) (sync : Bool) (p : Nat → Prog CM (Obj α) R) (k0 : Prog CM (Obj α) R)
    (h0 : p 0 = .barrier .world k0) (hp : ∀ r, 0 < r → ∃ v k, p r = .bcast .world v k) (sched : List Nat) :
    run n (comms n machine) sync (init p) sched = init p := by
  have harr : allArrived n (comms n machine) (init p) .world 0 true = false := by
    simp only [allArrived, List.all_eq_false, List.mem_range]
    obtain ⟨v, k, hk⟩ := hp 1 (by omega)
    exact ⟨1, hn, by simp [comms, arrived, init, hk]⟩
  induction sched with
  | nil => rfl
  | cons r sched ih =>
    have : step n (comms n machine) sync (init p) r = init p := by
      unfold step
      split_ifs with hr
      · rcases Nat.eq_zero_or_pos r with rfl | hpos
        · have hq : (init p).prog 0 = .barrier .world k0 := h0
          have hc : (init p).cnt .world 0 = 0 := rfl
          simp only [hq, hc, harr, Bool.and_false, Bool.false_eq_true, if_false]
        · obtain ⟨v, k, hk⟩ := hp r hpos
          have : r ≠ 0 := by omega
          simp [init, hk, comms, this]
      · rfl
    simpa [run, this] using ih

theorem phInit_other (file : PhFile α) (own : Fin 14 → Obj α) (r : Nat) (hr : 0 < r) : ∃ v k, phInit file own r = .bcast .world v k := by
  refine ⟨own 0, fun x => bcasts (List.ofFn fun i : Fin 13 => own i.succ) fun xs => .ret (some (x :: xs)), ?_⟩
  unfold phInit
  rw [if_neg (by omega), List.ofFn_succ, bcasts]

/-- C161 fails for damaged files: the first process ends with an exception other than the ones taken care of (`elphmod/MPI.py` 306, 349), and all other
processes wait forever. -/
theorem C161_broken_violated (n : Nat) (machine : Nat → Nat) (sync : Bool) (sched : List Nat) (r : Nat) (hr0 : 0 < r) :
    (∀ a, (run n (comms n machine) sync (init (bufferGet true (.broken : File α))) sched).prog r ≠ .ret a) ∧
      (∀ a, (run n (comms n machine) sync (init (load (.broken : File (Arr α)))) sched).prog r ≠ .ret a) ∧
      ∀ (own : Nat → Fin 14 → Obj α) (a : Option (List (Obj α))),
        (run n (comms n machine) sync (init fun r => phInit .broken (own r) r) sched).prog r ≠ .ret a := by
  have hne : r ≠ 0 := by omega
  refine ⟨fun a => ?_, fun a => ?_, fun own a => ?_⟩
  · rw [stuck_ended n machine sync _ (by simp [bufferGet]) (fun r hr => ⟨.nothing, .ret, by simp [bufferGet, Nat.pos_iff_ne_zero.1 hr]⟩)]
    simp [init, bufferGet, hne]
  · rw [stuck_ended n machine sync _ (by simp [load, readArray]) (fun r hr => ⟨.nothing, _, by simp only [load, Nat.pos_iff_ne_zero.1 hr, if_false]; rfl⟩)]
    simp [init, load, hne]
  · rw [stuck_ended n machine sync _ (by rw [phInit, if_pos rfl]) (fun r hr => phInit_other _ _ _ hr)]
    obtain ⟨v, k, h⟩ := phInit_other (.broken : PhFile α) (own r) r hr0
    simp only [init, h]
    exact fun h => by cases h

example := C161_broken_violated (α := ℕ) 2 id true [1, 0, 1, 1] 1 (by omega)

/-- C161 fails for force constants with an unknown Bravais lattice (`elphmod/bravais.py` 280, called by the first process only, `elphmod/ph.py` 208-212 and
1154): instead of an error message for the user, with more than one process, nothing is shown and no process ever ends. -/
theorem C161_lattice_violated (n : Nat) (hn : 1 < n) (machine : Nat → Nat) (sync : Bool) (ibrav : Int)
    (hib : ibrav ∉ [0, 1, 2, 3, -3, 4, 5, -5, 6, 7, 8, 9, -9, 91, 10, 11, 12, -12, 13, -13, 14]) (celldm : Fin 6 → ℝ) (vs : Fin 14 → Obj α)
    (own : Nat → Fin 14 → Obj α) (sched : List Nat) (r : Nat) :
    (run n (comms n machine) sync (init fun r => phInit (readFlfrc ibrav celldm vs) (own r) r) sched).out = [] ∧
      ∀ a, (run n (comms n machine) sync (init fun r => phInit (readFlfrc ibrav celldm vs) (own r) r) sched).prog r ≠ .ret a := by
  have hf : readFlfrc ibrav celldm vs = .lattice ibrav := by
    simp only [List.mem_cons, List.not_mem_nil, or_false, not_or] at hib
    obtain ⟨h0, h⟩ := hib
    unfold readFlfrc
    rw [if_neg h0]
    have : (Verif.Bravais.primitives ibrav 1 1 1 1 0 0 0 (some celldm) true none).1 = none := by
      simp only [Verif.Bravais.primitives, if_neg h0]
      simp [Verif.Bravais.latgen, h]
    rw [this]
  rw [hf, stuck_mismatch n hn machine sync _ _ (by rw [phInit, if_pos rfl, infoError]) (fun r hr => phInit_other _ _ _ hr)]
  refine ⟨rfl, fun a => ?_⟩
  rcases Nat.eq_zero_or_pos r with rfl | hr
  · simp only [init, phInit, if_true, infoError]
    exact fun h => by cases h
  · obtain ⟨v, k, h⟩ := phInit_other (.lattice ibrav : PhFile α) (own r) r hr
    simp only [init, h]
    exact fun h => by cases h

example := C161_lattice_violated (α := ℕ) 2 (by omega) id true 15 (by decide) (fun _ => 1) (fun _ => .nothing) (fun _ _ => .nothing) [0, 1, 0, 1] 0

theorem serial_exit {R : Type} (machine : Nat → Nat) (sync : Bool) (p : Nat → Prog CM (Obj α) R) (m : String) (a : R)
    (hp : p 0 = .barrier .world (.print m (.ret a))) :
    (run 1 (comms 1 machine) sync (init p) [0, 0]).out = [(0, m)] ∧ (run 1 (comms 1 machine) sync (init p) [0, 0]).prog 0 = .ret a := by
  have h1 : step 1 (comms 1 machine) sync (init p) 0 = pass (init p) .world 0 (.print m (.ret a)) (some none) := by
    simp [step, init, hp, comms, allArrived, arrived]
  have h2 : run 1 (comms 1 machine) sync (init p) [0, 0] =
      step 1 (comms 1 machine) sync (pass (init p) .world 0 (.print m (.ret a)) (some none)) 0 := by
    simp [run, h1]
  rw [h2]
  constructor <;> simp [step, pass, init]

/-- With a single process, the error message is shown and the program ends. -/
theorem C161_lattice_serial (machine : Nat → Nat) (sync : Bool) (ibrav : Int) (own : Nat → Fin 14 → Obj α) :
    (run 1 (comms 1 machine) sync (init fun r => phInit (.lattice ibrav : PhFile α) (own r) r) [0, 0]).out = [(0, "Error: Bravais lattice unknown!")] ∧
      (run 1 (comms 1 machine) sync (init fun r => phInit (.lattice ibrav : PhFile α) (own r) r) [0, 0]).prog 0 = .ret none := by
  exact serial_exit machine sync _ _ _ (by rw [phInit, if_pos rfl, infoError]; rfl)

example := C161_lattice_serial (α := ℕ) id false 15 (fun _ _ => .nothing)

/-! ## Methods of shared arrays -/

/-- `elphmod/MPI.py` 269-273 (`SharedArray.Bcast`) is called by the processes of the communicator passed to the constructor only. The final barrier is that
of all processes (line 273: `comm` is the global one). -/
def subBcast (machine : Nat → Nat) (member : Nat → Bool) (v : Nat → Obj α) (r : Nat) : Prog CM (Obj α) (Option (Obj α)) :=
  if member r then fill true machine r (v r) else .ret none

/-- C161 fails for shared arrays of sub-communicators (`comm` argument of `SharedArray`): `Bcast` waits for processes that do not belong to the communicator
and never call it. Whatever the communicator `images` of the array is (`G`), no process of the communicator ever returns. -/
theorem C161_sub_violated (n : Nat) (G : Comms CM) (hG : ∀ r, G.mem .world r = true) (machine : Nat → Nat) (sync : Bool) (member : Nat → Bool)
    (v : Nat → Obj α) (q : Nat) (hq : q < n) (hmq : member q = false) (r : Nat) (hmr : member r = true) (sched : List Nat) (a : Option (Obj α)) :
    (run n G sync (init (subBcast machine member v)) sched).prog r ≠ .ret a := by
  let P : State CM (Obj α) (Option (Obj α)) → Prop := fun s => s.prog q = .ret none ∧ s.cnt .world q = 0 ∧ ∀ r, member r = true →
    s.cnt .world r = 0 ∧ ((∃ w, s.prog r = .bcast (.images 0) w fun x => .barrier .world (.ret (some x))) ∨ ∃ b, s.prog r = .barrier .world (.ret b))
  have hinit : P (init (subBcast machine member v)) := by
    refine ⟨by simp [init, subBcast, hmq], rfl, fun r hr => ⟨rfl, ?_⟩⟩
    simp only [init, subBcast, hr, if_true, fill]
    split_ifs
    · exact Or.inl ⟨_, rfl⟩
    · exact Or.inr ⟨_, rfl⟩
  have hstep : ∀ s r', P s → P (step n G sync s r') := by
    intro s r' hs
    obtain ⟨h1, h2, h3⟩ := hs
    by_cases hr' : r' < n
    swap
    · simpa [step, hr'] using (show P s from ⟨h1, h2, h3⟩)
    have hpass : r' ≠ q → ∀ (w x : Obj α) (msg : Option (Option (Obj α))), member r' = true →
        P (pass s (.images 0) r' (.barrier .world (.ret (some x))) msg) := by
      intro hne w x msg _
      have hne' : ¬ q = r' := fun h => hne h.symm
      refine ⟨by simp [pass, hne', h1], by simp [pass, h2], fun r hr => ⟨by simp [pass, (h3 r hr).1], ?_⟩⟩
      by_cases e : r = r'
      · right
        exact ⟨some x, by simp [pass, e]⟩
      · simpa [pass, e] using (h3 r hr).2
    by_cases hm : member r' = true
    · have hne : r' ≠ q := by
        rintro rfl
        rw [hm] at hmq
        cases hmq
      rcases (h3 r' hm).2 with ⟨w, hw⟩ | ⟨b, hb⟩
      · unfold step
        rw [if_pos hr', hw]
        dsimp only
        split_ifs
        · exact hpass hne w w _ hm
        · exact ⟨h1, h2, h3⟩
        · split
          · exact hpass hne w _ _ hm
          · exact ⟨h1, h2, h3⟩
        · exact ⟨h1, h2, h3⟩
      · have harr : allArrived n G s .world 0 true = false := by
          simp only [allArrived, List.all_eq_false, List.mem_range]
          exact ⟨q, hq, by simp [hG, arrived, h1, h2]⟩
        unfold step
        rw [if_pos hr', hb]
        dsimp only
        rw [(h3 r' hm).1, harr]
        simpa using (show P s from ⟨h1, h2, h3⟩)
    · by_cases e : r' = q
      · subst e
        unfold step
        rw [if_pos hr', h1]
        exact ⟨h1, h2, h3⟩
      · -- other processes that do not belong to the communicator
        have hkeep : ∀ (t : State CM (Obj α) (Option (Obj α))), (∀ r, r ≠ r' → t.prog r = s.prog r ∧ t.cnt .world r = s.cnt .world r) → P t := by
          intro t ht
          refine ⟨by rw [(ht q (fun h => e h.symm)).1, h1], by rw [(ht q (fun h => e h.symm)).2, h2], fun r hr => ?_⟩
          have hne : r ≠ r' := by
            rintro rfl
            exact hm hr
          rw [(ht r hne).1, (ht r hne).2]
          exact h3 r hr
        apply hkeep
        intro r hne
        unfold step
        rw [if_pos hr']
        cases s.prog r' with
        | ret => exact ⟨rfl, rfl⟩
        | raise => exact ⟨rfl, rfl⟩
        | print m k => exact ⟨by simp [hne], rfl⟩
        | bcast c w k =>
          dsimp only
          split_ifs
          · exact ⟨by simp [pass, hne], by simp [pass, hne]⟩
          · exact ⟨rfl, rfl⟩
          · split
            · exact ⟨by simp [pass, hne], by simp [pass, hne]⟩
            · exact ⟨rfl, rfl⟩
          · exact ⟨rfl, rfl⟩
        | barrier c k =>
          dsimp only
          split_ifs
          · exact ⟨by simp [pass, hne], by simp [pass, hne]⟩
          · exact ⟨by simp [pass, hne], by simp [pass, hne]⟩
          · exact ⟨rfl, rfl⟩
  have hrun : ∀ sched s, P s → P (run n G sync s sched) := by
    intro sched
    induction sched with
    | nil => exact fun s hs => hs
    | cons r' sched ih => exact fun s hs => ih _ (hstep s r' hs)
  obtain ⟨-, -, h3⟩ := hrun sched _ hinit
  rcases (h3 r hmr).2 with ⟨w, hw⟩ | ⟨b, hb⟩
  · rw [hw]
    exact fun h => by cases h
  · rw [hb]
    exact fun h => by cases h

example := C161_sub_violated (α := ℕ) 4 (comms 4 fun _ => 0) (fun _ => rfl) (fun _ => 0) true (· < 2) (fun r => .any r) 3 (by omega) (by decide) 1 (by decide)
  [0, 1, 2, 3, 0, 1, 2, 3] none

/-- Content of an array of process `r` after `SharedArray.Bcast`, with its own memory (`old`), not shared with the node. -/
def ownContent (old : Nat → Obj α) (s : State CM (Obj α) (Option (Obj α))) (r : Nat) : Option (Obj α) :=
  match s.prog r with
  | .ret (some x) => some x
  | .ret none => some (old r)
  | _ => none

/-- C161 fails for arrays calculated from shared arrays, e.g., `2 * array`. They have their own memory on each process but inherit `node` and `images`
(`elphmod/MPI.py` 264-267), so that `Bcast` does not change them on processes other than the first of each node. -/
theorem C161_derived_violated (n : Nat) (hn : 0 < n) (machine : Nat → Nat) (sync : Bool) (old : Nat → Obj α) (rounds : List (List Nat))
    (hrounds : ∀ round ∈ rounds, ∀ r, r < n → r ∈ round) (hlen : 2 * n ≤ rounds.length) (r : Nat) (hr : r < n) :
    ownContent old (run n (comms n machine) sync (init fun r => fill true machine r (old r)) rounds.flatten) r =
      some (if nodeRank true machine r = 0 then old 0 else old r) := by
  have hG := comms_root n machine hn
  have hroot := comms_lt n machine hn
  have h : ∀ r, ∃ ms : List (Option String), ms.length ≤ 2 ∧ Follows (comms n machine) r (fill true machine r (old r))
      [(.images 0, some (old 0)), (.world, none)] (if nodeRank true machine r = 0 then some (old 0) else none) ms := by
    intro r
    by_cases hnr : nodeRank true machine r = 0
    · refine ⟨[none, none], by simp, ?_⟩
      simp only [fill, hnr, if_true]
      refine Follows.bcast (by simp [comms, hnr]) (fun h => ?_) (Follows.barrier rfl (Follows.ret _))
      rw [h, comms_images n machine hn]
    · refine ⟨[none], by simp, ?_⟩
      simp only [fill, hnr, if_true, if_false]
      exact Follows.skip (by simp [comms, hnr]) (Follows.barrier rfl (Follows.ret _))
  choose ms h1 h2 using h
  have hd := run_fair hG hroot (fun r _ => h2 r) sync rounds hrounds (by
    refine le_trans (Finset.sum_le_sum fun r _ => h1 r) ?_
    simpa [Nat.mul_comm] using hlen) r hr
  simp only [ownContent, hd]
  split_ifs <;> rfl

/-- On one node with two processes, the second one still has the old value. -/
example := C161_derived_violated 2 (by omega) (fun _ => 0) true (fun r => .any (7 * r)) (List.replicate 4 [0, 1])
  (by intro rd hrd r hr; rw [List.eq_of_mem_replicate hrd]; interval_cases r <;> simp) (by simp) 1 (by omega)

end Verif.MPI.Coll
