import Mathlib.Algebra.Ring.Int.Defs
import Mathlib.Data.Int.Order.Basic
import Mathlib.Algebra.Order.Group.Unbundled.Abs
import Mathlib.Algebra.Order.Group.Int

/-!
# Model of `elphmod/bravais.py`: supercells
-/

namespace Verif.Lattice

/-- Integer vectors (`ndarray` of three integers). -/
abbrev V3 := Int × Int × Int

/-- `np.dot` of two vectors. -/
def dot (a b : V3) : Int := a.1 * b.1 + a.2.1 * b.2.1 + a.2.2 * b.2.2

/-- `np.cross` of two vectors. -/
def cross (a b : V3) : V3 :=
  (a.2.1 * b.2.2 - a.2.2 * b.2.1, a.2.2 * b.1 - a.1 * b.2.2, a.1 * b.2.1 - a.2.1 * b.1)

/-- Scalar times vector. -/
def smul (c : Int) (a : V3) : V3 := (c * a.1, c * a.2.1, c * a.2.2)

/-- Sum of vectors. -/
def vadd (a b : V3) : V3 := (a.1 + b.1, a.2.1 + b.2.1, a.2.2 + b.2.2)

/-- Difference of vectors. -/
def vsub (a b : V3) : V3 := (a.1 - b.1, a.2.1 - b.2.1, a.2.2 - b.2.2)

/-- `n1 * N1 + n2 * N2 + n3 * N3`. -/
def comb (n : V3) (N1 N2 N3 : V3) : V3 :=
  vadd (vadd (smul n.1 N1) (smul n.2.1 N2)) (smul n.2.2 N3)

/-- `range(lo, hi)`. -/
def irange (lo hi : Int) : List Int := (List.range (hi - lo).toNat).map fun n : Nat => lo + (n : Int)

/-- Components of the eight corners (`elphmod/bravais.py` 412-415) along one axis, for spanning
vectors with components `a`, `b`, `c` along this axis. -/
def cornerVals (a b c : Int) : List Int :=
  [0, 1].flatMap fun n1 => [0, 1].flatMap fun n2 => [0, 1].map fun n3 =>
    n1 * a + n2 * b + n3 * c

/-- `corners.min(axis=0)` along one axis (`elphmod/bravais.py` 417). -/
def cornerMin (a b c : Int) : Int := (cornerVals a b c).foldl min ((cornerVals a b c).headD 0)

/-- `corners.max(axis=0) + 1` along one axis (`elphmod/bravais.py` 418). -/
def cornerMax (a b c : Int) : Int := (cornerVals a b c).foldl max ((cornerVals a b c).headD 0) + 1

/-- The tuple returned by `bravais.supercell`. -/
structure Supercell where
  N : Int
  N1 : V3
  N2 : V3
  N3 : V3
  B1 : V3
  B2 : V3
  B3 : V3
  cells : List V3

/-- `elphmod/bravais.py` 425-427. -/
def inCell (N : Int) (B1 B2 B3 R : V3) : Bool :=
  decide (0 ≤ dot R B1 ∧ dot R B1 < N) && decide (0 ≤ dot R B2 ∧ dot R B2 < N) &&
    decide (0 ≤ dot R B3 ∧ dot R B3 < N)

/-- `elphmod/bravais.py` 397-433 (`supercell` for three vectors), before the assertion in
line 431. -/
def supercellRaw (N1 N2 N3 : V3) : Supercell :=
  let N := dot N1 (cross N2 N3)
  let B1 := smul N.sign (cross N2 N3)
  let B2 := smul N.sign (cross N3 N1)
  let B3 := smul N.sign (cross N1 N2)
  let N := |N|
  let box : List V3 :=
    (irange (cornerMin N1.1 N2.1 N3.1) (cornerMax N1.1 N2.1 N3.1)).flatMap fun n1 =>
    (irange (cornerMin N1.2.1 N2.2.1 N3.2.1) (cornerMax N1.2.1 N2.2.1 N3.2.1)).flatMap fun n2 =>
    (irange (cornerMin N1.2.2 N2.2.2 N3.2.2) (cornerMax N1.2.2 N2.2.2 N3.2.2)).map fun n3 =>
      (n1, n2, n3)
  { N := N, N1 := N1, N2 := N2, N3 := N3, B1 := B1, B2 := B2, B3 := B3,
    cells := box.filter (inCell N B1 B2 B3) }

/-- `elphmod/bravais.py` 372-435 (`supercell`); `none` if the assertion in line 431 fails. -/
def supercell (N1 N2 N3 : V3) : Option Supercell :=
  let s := supercellRaw N1 N2 N3
  if (s.cells.length : Int) = s.N then some s else none

/-- `elphmod/bravais.py` 393-395: a scalar argument `n` at position `i`. -/
def scalarVec (i : Fin 3) (n : Int) : V3 :=
  match i with
  | 0 => (n, 0, 0)
  | 1 => (0, n, 0)
  | 2 => (0, 0, n)

/-- `elphmod/bravais.py` 437-462 (`to_supercell`). For `N > 0`, Python's `divmod` is
Euclidean division. `none` stands for the `ValueError` of `cells.index`. -/
def toSupercell (R : V3) (s : Supercell) : Option (V3 × Nat) :=
  let R1 := dot R s.B1 / s.N
  let r1 := dot R s.B1 % s.N
  let R2 := dot R s.B2 / s.N
  let r2 := dot R s.B2 % s.N
  let R3 := dot R s.B3 / s.N
  let r3 := dot R s.B3 % s.N
  let t := comb (r1, r2, r3) s.N1 s.N2 s.N3
  let r : V3 := (t.1 / s.N, t.2.1 / s.N, t.2.2 / s.N)
  if r ∈ s.cells then some ((R1, R2, R3), s.cells.idxOf r) else none

end Verif.Lattice
