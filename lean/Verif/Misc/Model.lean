import Mathlib.Algebra.Order.Group.Abs
import Mathlib.Algebra.Order.Field.Basic
import Mathlib.Data.List.Dedup

/-!
# Model of `elphmod/misc.py` (and `MPI.Buffer`)
-/

namespace Verif.Misc

/-! ## `MPI.Buffer` -/

/-- `pickle`: an encoder and a decoder. The pickle format is self-delimiting (it ends
with the `STOP` opcode), so a truncated pickle cannot be decoded. -/
structure Pickle (α : Type) where
  enc : α → List UInt8
  dec : List UInt8 → Option α
  dec_enc : ∀ v, dec (enc v) = some v
  dec_trunc : ∀ v k, k < (enc v).length → dec ((enc v).take k) = none

/-- Result of `Buffer.get()`: `None`, an object, or an exception
(`EOFError`, `UnpicklingError`, ... are not caught in `elphmod/MPI.py` 304-308). -/
inductive GetResult (α : Type)
  | none
  | obj (v : α)
  | error
deriving DecidableEq

/-- `elphmod/MPI.py` 289-310 (`Buffer.get`) for `buf` not `None`: only
`FileNotFoundError` is translated to `None`. The file is `none` if it does not exist. -/
def bufGet {α : Type} (P : Pickle α) (file : Option (List UInt8)) : GetResult α :=
  match file with
  | none => .none
  | some bytes =>
    match P.dec bytes with
    | some v => .obj v
    | none => .error

/-- `elphmod/MPI.py` 312-324 (`Buffer.set`): `open(self.buf, 'wb')` truncates the file,
then the pickle is written. `k` is the number of bytes that have reached the file. -/
def bufSetUpTo {α : Type} (P : Pickle α) (v : α) (k : Nat) : Option (List UInt8) :=
  some ((P.enc v).take k)

/-- What can happen to a buffer file. -/
inductive BufOp (α : Type)
  /-- completed `set` -/
  | set (v : α)
  /-- `get` (does not change the file) -/
  | get
  /-- the process dies after opening the file in `set` and writing `k` bytes -/
  | crashInSet (v : α) (k : Nat)

/-- Effect of an operation on the file. -/
def bufStep {α : Type} (P : Pickle α) (file : Option (List UInt8)) : BufOp α →
    Option (List UInt8)
  | .set v => bufSetUpTo P v (P.enc v).length
  | .get => file
  | .crashInSet v k => bufSetUpTo P v k

/-- Effect of a history. -/
def bufRun {α : Type} (P : Pickle α) (file : Option (List UInt8)) (ops : List (BufOp α)) :
    Option (List UInt8) :=
  ops.foldl (bufStep P) file

/-! ## `StatusBar` -/

/-- Output of progress bars; every item carries the number of the bar. -/
inductive Ev
  /-- title line -/
  | title (id : Nat)
  /-- one `=` -/
  | eq (id : Nat)
  /-- end of line -/
  | nl (id : Nat)
deriving DecidableEq

/-- Attributes of an instance that has passed the guard in `__init__`. -/
structure Bar where
  count : Nat
  width : Nat
  counter : Nat
  progress : Nat
deriving DecidableEq

/-- `rank0`: is this the first process? `active`: `StatusBar.in_progress` of the first
process (`none` for `False`); `bars`: all instances created so far (`none` for those
without attributes); `out`: standard output. -/
structure SB where
  rank0 : Bool
  active : Option Nat
  bars : List (Option Bar)
  out : List Ev

/-- Class state when the module is imported (`elphmod/misc.py` 142). -/
def sbInit (rank0 : Bool) : SB := { rank0 := rank0, active := none, bars := [], out := [] }

/-- Calls made by a program. `verbosity` is the global value at that time. -/
inductive SBOp
  | new (count width verbosity : Nat)
  | update (id : Nat)

/-- `elphmod/misc.py` 144-156 (`StatusBar.__init__`). On other processes
`in_progress` is `True` (line 142), so the constructor returns early. -/
def sbNew (s : SB) (count width verbosity : Nat) : SB :=
  if count = 0 ∨ (s.rank0 = false ∨ s.active ≠ none) ∨ verbosity < 3 then
    { s with bars := s.bars ++ [none] }
  else
    { s with
      active := some s.bars.length
      bars := s.bars ++ [some { count := count, width := width, counter := 0, progress := 0 }]
      out := s.out ++ [Ev.title s.bars.length] }

/-- `elphmod/misc.py` 158-177 (`StatusBar.update`). -/
def sbUpdate (s : SB) (id : Nat) : SB :=
  if s.active ≠ some id then s
  else
    match s.bars[id]? with
    | some (some b) =>
      let counter := b.counter + 1
      let progress := b.width * counter / b.count
      let out1 := if progress ≠ b.progress then
        s.out ++ List.replicate (progress - b.progress) (Ev.eq id) else s.out
      let b' := { b with counter := counter, progress := progress }
      let s' := { s with bars := s.bars.set id (some b'), out := out1 }
      if counter = b.count then { s' with active := none, out := out1 ++ [Ev.nl id] } else s'
    | _ => s

/-- One call. -/
def sbStep (s : SB) : SBOp → SB
  | .new c w v => sbNew s c w v
  | .update id => sbUpdate s id

/-- A history of calls. -/
def sbRun (s : SB) (ops : List SBOp) : SB := ops.foldl sbStep s

/-! ## `group` -/

section
variable {K : Type} [Ring K] [LinearOrder K]

/-- `np.all(np.absolute(points[j] - points[i]) < eps)` (`elphmod/misc.py` 217) for points
with `d` components. -/
def near (points : Nat → Nat → K) (d : Nat) (eps : K) (i j : Nat) : Bool :=
  (List.range d).all fun k => decide (|points j k - points i k| < eps)

/-- `groups[np.where(groups == groups[j])] = groups[i]` (`elphmod/misc.py` 218). -/
def relabel (g : Nat → Nat) (i j : Nat) : Nat → Nat :=
  fun x => if g x = g j then g i else g x

/-- The pairs visited by the double loop (`elphmod/misc.py` 215-216) in order. -/
def groupPairs (n : Nat) : List (Nat × Nat) :=
  (List.range n).flatMap fun i => (List.range' (i + 1) (n - (i + 1))).map fun j => (i, j)

/-- One pass through the loop body (`elphmod/misc.py` 217-218). -/
def groupStep (points : Nat → Nat → K) (d : Nat) (eps : K) (g : Nat → Nat) (p : Nat × Nat) :
    Nat → Nat :=
  if near points d eps p.1 p.2 then relabel g p.1 p.2 else g

/-- Final labels (`elphmod/misc.py` 213-218): `np.arange` and the loop. -/
def groupLabels (points : Nat → Nat → K) (n d : Nat) (eps : K) : Nat → Nat :=
  (groupPairs n).foldl (groupStep points d eps) fun x => x

/-- `[np.where(groups == group)[0] for group in set(groups)]` (`elphmod/misc.py` 220); the
iteration order of the set is taken to be the order of last occurrences. -/
def group (points : Nat → Nat → K) (n d : Nat) (eps : K) : List (List Nat) :=
  let g := groupLabels points n d eps
  (((List.range n).map g).dedup).map fun l => (List.range n).filter fun x => g x == l

end

/-! ## `differential` -/

/-- `elphmod/misc.py` 222-243. Arrays with fewer than two entries raise an `IndexError`
in line 237 (`none`). -/
def differential {K : Type} [Field K] (x : List K) : Option (List K) :=
  match x with
  | x0 :: x1 :: _ =>
    let n := x.length
    let mid := List.zipWith (· - ·) (x.drop 2) (x.take (n - 2))
    let dx := [x1 - x0] ++ mid ++ [x.getD (n - 1) 0 - x.getD (n - 2) 0]
    some (dx.map (· / 2))
  | _ => none

/-! ## `vector_index` -/

/-- `elphmod/misc.py` 741-761: `np.argmax` of a boolean array is the first `True`. -/
def vectorIndex {α : Type} [DecidableEq α] (vectors : List α) (v : α) : Option Nat :=
  let m := vectors.map fun u => decide (u = v)
  if m.any id then some (m.idxOf true) else none

/-- The common body of `el.Model.t` (`elphmod/el.py` 159-164), `ph.Model.C`
(`elphmod/ph.py` 195-200), `elel.Model.WR` (`elphmod/elel.py` 90-95) and
`elph.Model.gR` (`elphmod/elph.py` 217-224): stored block or zero. -/
def lookupBlock {α M : Type} [DecidableEq α] [Zero M] (R : List α) (data : List M) (v : α) : M :=
  match vectorIndex R v with
  | none => 0
  | some i => data.getD i 0

/-! ## `minimum` -/

/-- Outcome of `misc.minimum`. -/
inductive MinResult (K : Type)
  | value (x : K)
  | noExtremum
  | systemExit
deriving DecidableEq

/-- `elphmod/misc.py` 783-791. -/
def minimumFormula {K : Type} [Field K] [DecidableEq K] (x1 x2 x3 y1 y2 y3 : K) : MinResult K :=
  let enum := x1 ^ 2 * (y2 - y3) + x2 ^ 2 * (y3 - y1) + x3 ^ 2 * (y1 - y2)
  let deno := x1 * 2 * (y2 - y3) + x2 * 2 * (y3 - y1) + x3 * 2 * (y1 - y2)
  if deno ≠ 0 then .value (enum / deno) else .noExtremum

/-- `elphmod/misc.py` 776-791. `argv` are the command-line arguments after the program
name (already converted to numbers), `args` the arguments of the call. The second `if`
in line 778 is not an `elif`. -/
def minimum {K : Type} [Field K] [DecidableEq K] (argv args : List K) : MinResult K :=
  -- lines 776-777: six arguments of the call bind the coordinates ...
  let bound := match args with
    | [x1, x2, x3, y1, y2, y3] => some (x1, x2, x3, y1, y2, y3)
    | _ => none
  -- lines 778-781: ... but the coordinates are rebound from, or the program is ended for
  -- lack of, command arguments
  let bound := match argv with
    | [x1, x2, x3, y1, y2, y3] => some (x1, x2, x3, y1, y2, y3)
    | _ => let _ := bound; none
  match bound with
  | some (x1, x2, x3, y1, y2, y3) => minimumFormula x1 x2 x3 y1 y2 y3
  | none => .systemExit

/-! ## XSF and cube files -/

/-- `data.flat` of an array of shape `(n0, n1, n2)` (`elphmod/misc.py` 467): the last index
runs fastest. -/
def flatC {α : Type} (n0 n1 n2 : Nat) (data : Nat → Nat → Nat → α) : List α :=
  (List.range n0).flatMap fun i => (List.range n1).flatMap fun j =>
    (List.range n2).map fun k => data i j k

/-- `elphmod/misc.py` 467-471: six numbers per line. -/
def xsfLines {α : Type} : List α → List (List α)
  | [] => []
  | l@(_ :: _) => l.take 6 :: xsfLines (l.drop 6)
termination_by l => l.length
decreasing_by simp; subst_vars; simp; omega

/-- `elphmod/misc.py` 405-409: `while i < data.size: for number in next(lines).split()`.
`none` if the lines are exhausted (`StopIteration`) or contain too many numbers
(`IndexError`). -/
def xsfRead {α : Type} (size : Nat) : List (List α) → List α → Option (List α)
  | lines, acc =>
    if size ≤ acc.length then (if size = acc.length then some acc else none)
    else match lines with
      | [] => none
      | l :: ls => xsfRead size ls (acc ++ l)

/-- `elphmod/misc.py` 411-412: `np.transpose(np.reshape(data, n[::-1]))`. The reshaped
array of shape `(n2, n1, n0)` has element `(k, j, i)` at position `(k n1 + j) n0 + i`. -/
def xsfGrid {α : Type} (n0 n1 : Nat) (flat : List α) (i j k : Nat) : Option α :=
  flat[(k * n1 + j) * n0 + i]?

/-- `read_xsf` applied to the data grid written by `write_xsf` (numbers are not rounded). -/
def xsfRoundTrip {α : Type} (n0 n1 n2 : Nat) (data : Nat → Nat → Nat → α) (i j k : Nat) :
    Option α :=
  match xsfRead (n0 * n1 * n2) (xsfLines (flatC n0 n1 n2 data)) [] with
  | none => none
  | some flat => xsfGrid n0 n1 flat i j k

/-- `elphmod/misc.py` 272-330, as far as the origin is concerned. `header` is the origin
in the third line (line 280, rank 0 only), `garbage rank` the uninitialised memory
returned by `np.empty(3)` in line 287 on each process, which replaces `r0` on every
process before the broadcast from rank 0 (line 305). -/
def readCubeOrigin {K : Type} (header : List K) (garbage : Nat → List K) (rank : Nat) : List K :=
  let r0 := if rank = 0 then some header else none  -- line 280
  let _ := r0
  let r0 := garbage                                  -- line 287
  let bcast := fun _ : Nat => r0 0                   -- line 305
  bcast rank

end Verif.Misc
