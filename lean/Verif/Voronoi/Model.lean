import Verif.MPI.Model
import Mathlib.Algebra.Order.Ring.Defs
import Mathlib.Algebra.Order.Group.Unbundled.Abs
import Mathlib.Data.Finset.Image
import Mathlib.Data.Int.Cast.Basic
import Mathlib.Analysis.Real.Sqrt

/-!
# Model of `elphmod/bravais.py`: `squared_distance`, `to_Voronoi`, `wigner_2d`, `wigner`
-/

namespace Verif.Voronoi

/-- Supported angles. -/
inductive Angle
  | a60
  | a90
  | a120
  deriving DecidableEq, Repr

/-- `elphmod/bravais.py` 1027. -/
def Angle.sgn : Angle → Int
  | .a60 => 1
  | .a90 => 0
  | .a120 => -1

/-- Indices of a mesh point. -/
abbrev P := Int × Int

section
variable {K : Type} [CommRing K] [LinearOrder K]

/-- `elphmod/bravais.py` 1007-1029 (`squared_distance`). -/
def sqDist (angle : Angle) (k1 k2 : K) : K := k1 * k1 + k2 * k2 + (angle.sgn : K) * k1 * k2

/-- `elphmod/bravais.py` 1054-1060: list of equivalent points considered. -/
def voronoiImages (k : P) (nk : Int) : List P :=
  let k1 := k.1 % nk
  let k2 := k.2 % nk
  [(k1, k2), (k1 - nk, k2), (k1, k2 - nk), (k1 - nk, k2 - nk)] ++
    if nk < 3 then [(k1 + nk, k2), (k1, k2 + nk), (k1 + nk, k2 + nk)] else []

/-- `elphmod/bravais.py` 1062-1063: distance from the centre of the shifted cell. -/
def imageDist (angle : Angle) (dk1 dk2 : K) (p : P) : K :=
  sqDist angle ((p.1 : K) - dk1) ((p.2 : K) - dk2)

/-- Python's `min` of a nonempty list. -/
def listMin : K → List K → K
  | a, [] => a
  | a, b :: l => listMin (min a b) l

/-- `elphmod/bravais.py` 1031-1068 (`to_Voronoi`). -/
def toVoronoi (k : P) (nk : Int) (angle : Angle) (dk1 dk2 eps : K) : Finset P :=
  let images := voronoiImages k nk
  let distances := images.map (imageDist angle dk1 dk2)
  let minimum := listMin (distances.headD 0) distances.tail
  (images.filter fun p => decide (|imageDist angle dk1 dk2 p - minimum| ≤ eps)).toFinset

/-- `elphmod/bravais.py` 1095-1098: all mesh points in row-major order. -/
def meshPoints (nk : Nat) : List P :=
  (List.range nk).flatMap fun k1 : Nat => (List.range nk).map fun k2 : Nat => ((k1 : Int), (k2 : Int))

/-- `elphmod/bravais.py` 1093-1101 (`wigner_2d`): points with degeneracies before sorting. Sorting
(line 1103) is modelled as an arbitrary permutation in the properties, and so is the order in
which Python enumerates the set returned by `to_Voronoi`. -/
noncomputable def wigner2d (nk : Nat) (angle : Angle) (dk1 dk2 eps : K) : List (P × Nat) :=
  (meshPoints nk).flatMap fun k =>
    let images := toVoronoi k nk angle dk1 dk2 eps
    images.toList.map fun p => (p, images.card)

end

/-! ### `wigner` -/

/-- Integer vectors. -/
abbrev V3 := Int × Int × Int

/-- `range(lo, hi)`. -/
def irange (lo hi : Int) : List Int := (List.range (hi - lo).toNat).map fun n : Nat => lo + (n : Int)

/-- `elphmod/bravais.py` 1262 and 1278-1286: copies of the mesh point `m`. -/
def copies (sgn : Int) (nr : V3) (nsc : Nat) (m : V3) : List V3 :=
  (irange (-nsc) nsc).flatMap fun M1 => (irange (-nsc) nsc).flatMap fun M2 =>
    (irange (-nsc) nsc).map fun M3 =>
      (sgn * (M1 * nr.1 + m.1), sgn * (M2 * nr.2.1 + m.2.1), sgn * (M3 * nr.2.2 + m.2.2))

/-- `elphmod/bravais.py` 1268-1270: mesh points in the order of the loops. -/
def mesh3 (n1 n2 n3 : Nat) : List V3 :=
  (List.range n1).flatMap fun m1 : Nat => (List.range n2).flatMap fun m2 : Nat =>
    (List.range n3).map fun m3 : Nat => ((m1 : Int), (m2 : Int), (m3 : Int))

section
variable {K : Type} [AddCommGroup K] [LinearOrder K]

/-- Minimum of the lengths (line 1298). -/
def minOf (len : V3 → K) : List V3 → Option K
  | [] => none
  | R :: l => match minOf len l with
    | none => some (len R)
    | some x => some (min (len R) x)

/-- `elphmod/bravais.py` 1296-1300: copies within the tolerance of the minimal bond length. -/
def selected (eps : K) (len : V3 → K) (cs : List V3) : List V3 :=
  match minOf len cs with
  | none => []
  | some x => cs.filter fun R => decide (|len R - x| < eps)

/-- The dictionary `data`: keys in order of insertion, degeneracies (zero if not set,
lines 1307-1310). -/
structure Dict (ι κ : Type) where
  keys : List V3
  deg : V3 → ι → κ → Nat

/-- `elphmod/bravais.py` 1304-1312: one iteration of the loop over `selected`. -/
def Dict.set {ι κ : Type} [DecidableEq ι] [DecidableEq κ] (d : Dict ι κ) (o : V3 × ι × κ × Nat) :
    Dict ι κ :=
  { keys := if o.1 ∈ d.keys then d.keys else d.keys ++ [o.1],
    deg := fun R i j => if R = o.1 ∧ i = o.2.1 ∧ j = o.2.2.1 then o.2.2.2 else d.deg R i j }

/-- `elphmod/bravais.py` 1291-1312: assignments made for one mesh point. `len i j R` is the length of
the bond for basis sites `i`, `j` and lattice vector `R`. -/
def opsOf {ι κ : Type} (eps : K) (sgn : Int) (nr : V3) (nsc : Nat) (len : ι → κ → V3 → K)
    (is : List ι) (js : List κ) (m : V3) : List (V3 × ι × κ × Nat) :=
  is.flatMap fun i => js.flatMap fun j =>
    let sel := selected eps (len i j) (copies sgn nr nsc m)
    sel.map fun R => (R, i, j, sel.length)

/-- `elphmod/bravais.py` 1264-1312: dictionary of one process after the loops. -/
def rankDict {ι κ : Type} [DecidableEq ι] [DecidableEq κ] (eps : K) (sgn : Int) (nr : V3)
    (nsc : Nat) (len : ι → κ → V3 → K) (is : List ι) (js : List κ) (ms : List V3) : Dict ι κ :=
  (ms.flatMap (opsOf eps sgn nr nsc len is js)).foldl Dict.set ⟨[], fun _ _ _ => 0⟩

/-- `elphmod/bravais.py` 1228-1342 (`wigner`) on `size` processes: gathered lattice vectors and
degeneracies. -/
def wignerWith {ι κ : Type} [DecidableEq ι] [DecidableEq κ] (size : Nat) (eps : K) (sgn : Int)
    (n1 n2 n3 : Nat) (nsc : Nat) (len : ι → κ → V3 → K) (is : List ι) (js : List κ) :
    List (V3 × (ι → κ → Nat)) :=
  (List.range size).flatMap fun rank =>
    let d := rankDict eps sgn ((n1 : Int), (n2 : Int), (n3 : Int)) nsc len is js
      (Verif.MPI.dealWigner size rank (mesh3 n1 n2 n3))
    d.keys.map fun R => (R, d.deg R)

end

/-- `elphmod/bravais.py` 1290, 1296-1297: bond length, `shifts = copies.dot(at)`,
`np.sqrt(np.dot(r, r))` for `r = shift + tau2[j] - tau[i]`. -/
noncomputable def bondLength (at' : Fin 3 → Fin 3 → ℝ) (ti tj : Fin 3 → ℝ) (R : V3) : ℝ :=
  let r : Fin 3 → ℝ := fun x =>
    ((R.1 : ℝ) * at' 0 x + (R.2.1 : ℝ) * at' 1 x + (R.2.2 : ℝ) * at' 2 x) + tj x - ti x
  Real.sqrt (r 0 * r 0 + r 1 * r 1 + r 2 * r 2)

/-- `wigner` for `n` and `m` basis sites. -/
noncomputable def wigner (size : Nat) (n1 n2 n3 : Nat) (at' : Fin 3 → Fin 3 → ℝ) {n m : Nat}
    (tau : Fin n → Fin 3 → ℝ) (tau2 : Fin m → Fin 3 → ℝ) (eps : ℝ) (sgn : Int) (nsc : Nat) :
    List (V3 × (Fin n → Fin m → Nat)) :=
  wignerWith size eps sgn n1 n2 n3 nsc (fun i j => bondLength at' (tau i) (tau2 j))
    (List.finRange n) (List.finRange m)

end Verif.Voronoi
