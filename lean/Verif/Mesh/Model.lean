import Mathlib.Data.Finset.Basic
import Mathlib.Data.Int.Order.Basic
import Mathlib.Algebra.Ring.Int.Defs
import Mathlib.Data.Finset.Image
import Mathlib.Logic.Function.Iterate

/-!
# Model of `elphmod/bravais.py`: point-group symmetry of two-dimensional meshes
-/

namespace Verif.Mesh

/-- Indices of a mesh point. -/
abbrev P := Int × Int

/-- The three lattices the functions are meant for. -/
inductive Angle
  | a60
  | a90
  | a120
  deriving DecidableEq, Repr

/-- `elphmod/bravais.py` 486-491: one elementary rotation (by 60, 90, 60 degrees). -/
def rot : Angle → P → P
  | .a60, (k1, k2) => (-k2, k1 + k2)
  | .a90, (k1, k2) => (-k2, k1)
  | .a120, (k1, k2) => (k1 - k2, k1)

/-- `elphmod/bravais.py` 495-496: mapping to `[0, nk)`. For `nk > 0` Python's `%` is the
Euclidean remainder. -/
def red (nk : Int) (k : P) : P := (k.1 % nk, k.2 % nk)

/-- Loop in `elphmod/bravais.py` 482-503. `none`: not finished within the given number of
iterations. -/
def imagesLoop (angle : Angle) (nk : Int) : Nat → Finset P → P → Option (Finset P)
  | 0, _, _ => none
  | fuel + 1, points, k =>
    let k' := red nk (rot angle k)
    if k' ∈ points then some points else imagesLoop angle nk fuel (insert k' points) k'

/-- `elphmod/bravais.py` 464-509 (`images`). The fuel is shown to be sufficient
(`images_terminates`). -/
def images (k : P) (nk : Int) (angle : Angle) : Finset P :=
  let points := (imagesLoop angle nk 7 ∅ k).getD ∅
  points ∪ points.image (fun p => (p.2, p.1))

/-- `elphmod/bravais.py` 534-537: all mesh points in row-major order. -/
def meshPoints (nk : Nat) : List P :=
  (List.range nk).flatMap fun k1 : Nat => (List.range nk).map fun k2 : Nat => ((k1 : Int), (k2 : Int))

/-- `elphmod/bravais.py` 543-547: body of the loop. -/
def irrStep (nk : Nat) (angle : Angle) (irreducible : Finset P) (k : P) : Finset P :=
  if k ∈ irreducible then irreducible \ ((images k nk angle).erase k) else irreducible

/-- `elphmod/bravais.py` 511-552 (`irreducibles`). -/
def irreducibles (nk : Nat) (angle : Angle) : Finset P :=
  (meshPoints nk).foldl (irrStep nk angle) (meshPoints nk).toFinset

/-! ### `symmetries`, `complete` -/

/-- `elphmod/bravais.py` 592-593 (`K[0] *= -1`) in terms of mesh indices, see
`C21_cartesian`. -/
def refl : Angle → P → P
  | .a60, (k1, k2) => (-k1, k1 + k2)
  | .a90, (k1, k2) => (-k1, k2)
  | .a120, (k1, k2) => (-k1, -k1 + k2)

/-- `elphmod/bravais.py` 583-606 (`get_image`): image of one mesh point under rotation number `n`
and optional reflection, without the test of the data. The Cartesian arithmetic is done with exact
real numbers in `C21_cartesian`. -/
def symMap (angle : Angle) (nk : Int) (reflect : Bool) (n : Nat) (k : P) : P :=
  let K := (rot angle)^[n] k
  red nk (if reflect then refl angle K else K)

/-- `elphmod/bravais.py` 614: number of rotation angles in `range(0, 360, dangle)`. -/
def nrot : Angle → Nat
  | .a60 => 6
  | .a90 => 4
  | .a120 => 6

/-- `elphmod/bravais.py` 616-618: the sequence of tested symmetries for `unity=False`. -/
def symMaps (angle : Angle) (nk : Int) : List (P → P) :=
  [false, true].flatMap fun reflect =>
    ((List.range (nrot angle)).filter fun n => reflect || n != 0).map fun n =>
      symMap angle nk reflect n

/-- Test in `elphmod/bravais.py` 599-602 with `epsilon = 0` for all points; a comparison that
involves NaN (`none`) is false. -/
def accepts {K : Type} [DecidableEq K] (pts : List P) (data : P → Option K) (img : P → P) : Bool :=
  pts.all fun k =>
    match data k, data (img k) with
    | some a, some b => decide (a = b)
    | _, _ => true

/-- `elphmod/bravais.py` 652-653. -/
def fill {K : Type} (irreducible : List P) (img : P → P) (data : P → Option K) : P → Option K :=
  irreducible.foldl (fun d k => Function.update d (img k) (d k)) data

/-- Loop in `elphmod/bravais.py` 651-656. -/
def completeLoop {K : Type} [DecidableEq K] (pts irreducible : List P) :
    List (P → P) → (P → Option K) → (P → Option K)
  | [], data => data
  | img :: syms, data =>
    if accepts pts data img then
      let data := fill irreducible img data
      if pts.all fun k => (data k).isSome then data else completeLoop pts irreducible syms data
    else completeLoop pts irreducible syms data

/-- `elphmod/bravais.py` 627-656 (`complete`): content of the array afterwards. -/
def completeWith {K : Type} [DecidableEq K] (pts : List P) (syms : List (P → P))
    (data : P → Option K) : P → Option K :=
  let irreducible := pts.filter fun k => (data k).isSome
  if irreducible.length = pts.length then data else completeLoop pts irreducible syms data

/-- `complete` with the symmetries of the lattice. -/
def complete {K : Type} [DecidableEq K] (nk : Nat) (angle : Angle) (data : P → Option K) :
    P → Option K :=
  completeWith (meshPoints nk) (symMaps angle nk) data

end Verif.Mesh
