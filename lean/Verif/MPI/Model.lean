/-!
# Model of `elphmod/MPI.py`: work distribution and communicators

Python functions are mirrored branch by branch. Communicators are described by
the functions `rank ↦ color` and `rank ↦ new rank` of `MPI_Comm_split`.
-/

namespace Verif.MPI

/-! ## `distribute` -/

/-- In-place `a[:n] += 1` on a NumPy array. -/
def incPrefix (n : Nat) (a : List Nat) : List Nat :=
  (a.take n).map (· + 1) ++ a.drop n

/-- `elphmod/MPI.py` 98-100: `sizes[:] = size // chunks` and
`sizes[:size % chunks] += 1`. -/
def distSizes (size chunks : Nat) : List Nat :=
  incPrefix (size % chunks) (List.replicate chunks (size / chunks))

/-- `elphmod/MPI.py` 107-111: `cumsum[0] = 0` and
`cumsum[rank + 1] = cumsum[rank] + sizes[rank]`, one step of the loop per
element of `sizes`; the first argument is the current last entry. -/
def cumsumFrom : Nat → List Nat → List Nat
  | c, [] => [c]
  | c, s :: ss => c :: cumsumFrom (c + s) ss

/-- `elphmod/MPI.py` 90-117: `distribute(size, bounds=True, chunks=chunks)`.
For `chunks = 0` Python raises `ZeroDivisionError` in line 99 (`none`).
The result of rank 0 is broadcast to all processes (lines 102, 113). -/
def distribute (size chunks : Nat) : Option (List Nat × List Nat) :=
  if chunks = 0 then none
  else
    let sizes := distSizes size chunks
    some (sizes, cumsumFrom 0 sizes)

/-! ## Scatter, local loop, gather

The pattern of e.g. `elphmod/dispersion.py` 427-443 (`sample`) and
`elphmod/bravais.py` 978-999 (`resize`). -/

/-- `comm.Scatterv`: cut a list into consecutive pieces of the given sizes. -/
def scatterv {α : Type} : List Nat → List α → List (List α)
  | [], _ => []
  | s :: ss, xs => xs.take s :: scatterv ss (xs.drop s)

/-- `comm.Gatherv`/`comm.Allgatherv`: concatenate the pieces in rank order. -/
def gatherv {α : Type} (pieces : List (List α)) : List α := pieces.flatten

/-- The serial composition of scatter, local loops and gather on `n`
processes; `none` if `distribute` fails. -/
def parMap {α β : Type} (n : Nat) (f : α → β) (xs : List α) : Option (List β) :=
  (distribute xs.length n).map fun p =>
    gatherv ((scatterv p.1 xs).map fun piece => piece.map f)

/-- `range(*bounds[rank:rank + 2])` (e.g. `elphmod/dispersion.py` 436). -/
def boundsRange (bounds : List Nat) (rank : Nat) : List Nat :=
  List.range' (bounds.getD rank 0) (bounds.getD (rank + 1) 0 - bounds.getD rank 0)

/-- One process of the parallel loop: items still to do, results so far
(`my_matrix[my_ik] = matrix(*k[ik])`). -/
structure Worker (α β : Type) where
  todo : List α
  done : List β

/-- One iteration of the local loop of one process. -/
def Worker.step {α β : Type} (f : α → β) (w : Worker α β) : Worker α β :=
  match w.todo with
  | [] => w
  | x :: xs => { todo := xs, done := w.done ++ [f x] }

/-- Processes after the scatter. -/
def initWorkers {α β : Type} (sizes : List Nat) (xs : List α) : List (Worker α β) :=
  (scatterv sizes xs).map fun piece => { todo := piece, done := [] }

/-- The scheduler lets process `r` perform one iteration. -/
def schedStep {α β : Type} (f : α → β) (ws : List (Worker α β)) (r : Nat) :
    List (Worker α β) :=
  ws.modify r (Worker.step f)

/-- Run an arbitrary schedule (list of process numbers). -/
def runSched {α β : Type} (f : α → β) (ws : List (Worker α β)) (sched : List Nat) :
    List (Worker α β) :=
  sched.foldl (schedStep f) ws

/-- All local loops have ended: `Gatherv` completes. -/
def allDone {α β : Type} (ws : List (Worker α β)) : Prop := ∀ w ∈ ws, w.todo = []

/-- Result of the gather. -/
def gatherWorkers {α β : Type} (ws : List (Worker α β)) : List β :=
  gatherv (ws.map Worker.done)

/-! ## Round robin -/

/-- `[v for n, v in enumerate(items) if comm.rank == n % comm.size]`
(`elphmod/dos.py` 88-89; with explicit index also 234-239). `n` is the current
value of the counter. -/
def dealFrom {α : Type} (size rank : Nat) : Nat → List α → List α
  | _, [] => []
  | n, x :: xs =>
    if rank = n % size then x :: dealFrom size rank (n + 1) xs
    else dealFrom size rank (n + 1) xs

/-- `elphmod/dos.py` 88-89: counter starts at 0. -/
def deal {α : Type} (size rank : Nat) (xs : List α) : List α := dealFrom size rank 0 xs

/-- `elphmod/bravais.py` 1266-1274 (`wigner`): the counter is incremented before
the test, so it starts at 1: `N += 1; if N % comm.size != comm.rank: continue`. -/
def dealWigner {α : Type} (size rank : Nat) (xs : List α) : List α :=
  dealFrom size rank 1 xs

/-- `triangles[comm.rank::comm.size]` (`elphmod/dos.py` 331): Python slice with
stride; `skip` items are passed over before the next one is taken. -/
def strideFrom {α : Type} (size : Nat) : Nat → List α → List α
  | _, [] => []
  | 0, x :: xs => x :: strideFrom size (size - 1) xs
  | skip + 1, _ :: xs => strideFrom size skip xs

/-! ## Communicators -/

/-- `comm.Split(color, key=comm.rank)`: the rank in the new communicator is the
number of smaller old ranks with the same color. -/
def splitRank (color : Nat → Nat) (r : Nat) : Nat :=
  ((List.range r).filter fun s => color s == color r).length

/-- Size of the new communicator of rank `r` for `n` processes. -/
def splitSize (color : Nat → Nat) (n r : Nat) : Nat :=
  ((List.range n).filter fun s => color s == color r).length

/-- `elphmod/MPI.py` 124: color of `col`. -/
def colColor (size r : Nat) : Nat := r % size
/-- `elphmod/MPI.py` 125: color of `row`. -/
def rowColor (size r : Nat) : Nat := r / size

/-- `elphmod/MPI.py` 119-127: `col.rank`. -/
def colRank (size r : Nat) : Nat := splitRank (colColor size) r
/-- `elphmod/MPI.py` 119-127: `row.rank`. -/
def rowRank (size r : Nat) : Nat := splitRank (rowColor size) r
/-- `elphmod/MPI.py` 119-127: `row.size` for `n` processes. -/
def rowSize (size n r : Nat) : Nat := splitSize (rowColor size) n r

/-- `elphmod/elph.py` 881: the q points process `r` works on,
`range(*bounds[row.rank:row.rank + 2])`, where `bounds` is the result of
`distribute(nq)` with the full communicator (line 848). -/
def sampleRange (n nq r : Nat) : List Nat :=
  match distribute nq n with
  | none => []
  | some (_, bounds) => boundsRange bounds (rowRank nq r)

/-- `elphmod/MPI.py` 169-185 (`shm_split`). `shared = false`: `node = I` (every
process is alone), otherwise `Split_type` by the node of the machine. -/
def nodeColor (shared : Bool) (machine : Nat → Nat) (r : Nat) : Nat :=
  if shared then machine r else r
/-- `node.rank`. -/
def nodeRank (shared : Bool) (machine : Nat → Nat) (r : Nat) : Nat :=
  splitRank (nodeColor shared machine) r
/-- Color of `images`: `comm.Split(node.rank, key=comm.rank)` (line 183), or all
processes (`images = comm`, line 173) without shared memory. -/
def imagesColor (shared : Bool) (machine : Nat → Nat) (r : Nat) : Nat :=
  if shared then nodeRank shared machine r else 0
/-- `images.rank`. -/
def imagesRank (shared : Bool) (machine : Nat → Nat) (r : Nat) : Nat :=
  splitRank (imagesColor shared machine) r

/-! ## Broadcast protocol on shared arrays

`elphmod/MPI.py` 195-211 (docstring of `shared_array`), 269-272
(`SharedArray.Bcast`), 363-371 (`load`). Program of process `r`:

    0: if comm.rank == 0: array[...] = data
    1: if node.rank == 0: images.Bcast(array)
    2: comm.Barrier()
    3: done
-/

/-- Global state: program counters, one memory cell (whole array) per node
and the message of the broadcast once the root has sent it. -/
structure BState (α : Type) where
  pc : Nat → Nat
  mem : Nat → α
  msg : Option α

/-- Function update. -/
def upd {β : Type} (f : Nat → β) (i : Nat) (v : β) : Nat → β :=
  fun j => if j = i then v else f j

/-- Have all `n` processes entered the barrier? -/
def barrierOpen {α : Type} (n : Nat) (s : BState α) : Bool :=
  (List.range n).all fun r => 2 ≤ s.pc r

/-- One step of process `r` (no change if the process is blocked or done). -/
def bstep {α : Type} (n : Nat) (shared : Bool) (machine : Nat → Nat) (data : α)
    (s : BState α) (r : Nat) : BState α :=
  if r < n then
    match s.pc r with
    | 0 =>
      { s with pc := upd s.pc r 1,
               mem := if r = 0 then upd s.mem (nodeColor shared machine r) data else s.mem }
    | 1 =>
      if nodeRank shared machine r = 0 then
        if imagesRank shared machine r = 0 then
          { s with pc := upd s.pc r 2, msg := some (s.mem (nodeColor shared machine r)) }
        else
          match s.msg with
          | none => s
          | some v =>
            { s with pc := upd s.pc r 2, mem := upd s.mem (nodeColor shared machine r) v }
      else { s with pc := upd s.pc r 2 }
    | 2 => if barrierOpen n s then { s with pc := upd s.pc r 3 } else s
    | _ => s
  else s

/-- Start: arbitrary memory. -/
def binit {α : Type} (mem : Nat → α) : BState α := { pc := fun _ => 0, mem := mem, msg := none }

/-- Run an arbitrary schedule. -/
def brun {α : Type} (n : Nat) (shared : Bool) (machine : Nat → Nat) (data : α)
    (s : BState α) (sched : List Nat) : BState α :=
  sched.foldl (bstep n shared machine data) s

/-! ## End of `elph.sample` with shared memory on a single node

`elphmod/elph.py` 915-933. All processes share the array `g`. Processes with
`col.rank == 0` go through `row.size` rounds; in the round of its own row rank a
process writes its block; every round ends with a barrier among the processes of
this row. Processes with `col.rank != 0` return at once (line 933). -/

/-- `pc r` counts finished rounds of process `r` (`rounds = row.size`);
`arrived r` tells if it waits in the barrier; `written iq` is the content of `g`. -/
structure GState where
  pc : Nat → Nat
  arrived : Nat → Bool
  returned : Nat → Bool
  written : Nat → Bool

/-- Have all processes of the first row (`col.rank == 0`) arrived in round `k`
or gone beyond it? -/
def gBarrierOpen (n nq k : Nat) (s : GState) : Bool :=
  (List.range n).all fun r =>
    colRank nq r != 0 || decide (k < s.pc r) || (decide (s.pc r = k) && s.arrived r)

/-- One step of process `r`. -/
def gstep (n nq : Nat) (s : GState) (r : Nat) : GState :=
  if r < n then
    if colRank nq r ≠ 0 then { s with returned := upd s.returned r true }
    else if s.pc r < rowSize nq n r then
      if s.arrived r then
        if gBarrierOpen n nq (s.pc r) s then
          { s with pc := upd s.pc r (s.pc r + 1), arrived := upd s.arrived r false }
        else s
      else
        { s with arrived := upd s.arrived r true,
                 written := if s.pc r = rowRank nq r then
                     fun iq => s.written iq || decide (iq ∈ sampleRange n nq r)
                   else s.written }
    else { s with returned := upd s.returned r true }
  else s

/-- All processes have entered the final section, nothing is written. -/
def ginit : GState :=
  { pc := fun _ => 0, arrived := fun _ => false, returned := fun _ => false,
    written := fun _ => false }

/-- Run a schedule. -/
def grun (n nq : Nat) (s : GState) (sched : List Nat) : GState := sched.foldl (gstep n nq) s

end Verif.MPI
