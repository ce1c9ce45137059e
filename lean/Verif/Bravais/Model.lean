import Mathlib.Analysis.Real.Sqrt
import Mathlib.Analysis.SpecialFunctions.Trigonometric.Basic
import Mathlib.Data.Fin.VecNotation

/-!
# Model of lattice vectors and meshes in `elphmod/bravais.py`

`rotate`, `primitives`, `translations`, `reciprocals`, `volume`, `crystal_to_cartesian`,
`cartesian_to_crystal`, `mesh`, `kpoints`. Real arithmetic; division by zero (Python: infinities or an
exception of NumPy) is excluded by hypotheses of the properties.
-/

namespace Verif.Bravais

/-- Three vectors in three dimensions (rows). -/
abbrev M3 := Fin 3 → Fin 3 → ℝ
/-- Vector. -/
abbrev R3 := Fin 3 → ℝ
/-- Vector in the plane. -/
abbrev R2 := Fin 2 → ℝ

/-- `np.dot` in two dimensions. -/
def dot2 (u v : R2) : ℝ := u 0 * v 0 + u 1 * v 1

/-- `np.dot` in three dimensions. -/
def dot3 (u v : R3) : ℝ := u 0 * v 0 + u 1 * v 1 + u 2 * v 2

/-- `np.cross`. -/
def cross (u v : R3) : R3 := ![u 1 * v 2 - u 2 * v 1, u 2 * v 0 - u 0 * v 2, u 0 * v 1 - u 1 * v 0]

/-- `elphmod/bravais.py` 16-37 (`rotate` in the plane). -/
noncomputable def rotate (v : R2) (angle : ℝ) : R2 :=
  ![Real.cos angle * v 0 - Real.sin angle * v 1, Real.sin angle * v 0 + Real.cos angle * v 1]

/-- `elphmod/bravais.py` 38-48 (`rotate`, `two_dimensional=False`). -/
noncomputable def rotate3 (v : R3) (angle : ℝ) : R3 :=
  ![Real.cos angle * v 0 - Real.sin angle * v 1, Real.sin angle * v 0 + Real.cos angle * v 1, v 2]

/-- `deg = np.pi / 180` (`elphmod/bravais.py` 14). -/
noncomputable def deg : ℝ := Real.pi / 180

/-- `elphmod/bravais.py` 282-316 (`translations`, `two_dimensional=True`). -/
noncomputable def translations (angle angle0 : ℝ) : R2 × R2 :=
  let a1 := rotate ![1, 0] (angle0 * deg)
  (a1, rotate a1 (angle * deg))

/-- `elphmod/bravais.py` 331-338 (`reciprocals` in the plane). -/
noncomputable def reciprocals2 (a1 a2 : R2) : R2 × R2 :=
  let b1 := rotate a2 (-90 * deg)
  let b2 := rotate a1 (90 * deg)
  (fun i => b1 i / dot2 a1 b1, fun i => b2 i / dot2 a2 b2)

/-- `elphmod/bravais.py` 340-349 (`reciprocals`). -/
noncomputable def reciprocals3 (a1 a2 a3 : R3) : R3 × R3 × R3 :=
  let b1 := cross a2 a3
  let b2 := cross a3 a1
  let b3 := cross a1 a2
  (fun i => b1 i / dot3 a1 b1, fun i => b2 i / dot3 a2 b2, fun i => b3 i / dot3 a3 b3)

/-- `elphmod/bravais.py` 367-368 (`volume`, area). -/
def area (a1 a2 : R2) : ℝ := |a1 0 * a2 1 - a1 1 * a2 0|

/-- `elphmod/bravais.py` 370 (`volume`). -/
def volume (a1 a2 a3 : R3) : ℝ := |dot3 a1 (cross a2 a3)|

/-- `elphmod/bravais.py` 2589-2615 (`crystal_to_cartesian`) for one position. -/
def crystalToCartesian (a1 a2 a3 : R3) (r : R3) : R3 := fun x => r 0 * a1 x + r 1 * a2 x + r 2 * a3 x

/-- `elphmod/bravais.py` 2631-2644 (`cartesian_to_crystal`) for one position; `inv` stands for
`np.linalg.inv`, whose argument has the lattice vectors as columns. -/
def cartesianToCrystal (inv : M3 → M3) (a1 a2 a3 : R3) (r : R3) : R3 :=
  let A : M3 := fun i j => (![a1, a2, a3] j) i
  fun i => dot3 (inv A i) r

/-! ### `primitives` -/

/-- `elphmod/bravais.py` 115-280: matrix of lattice vectors for given `celldm`; `none` for an unknown
index (line 280, program exit). -/
noncomputable def latgen (ibrav : Int) (cd : Fin 6 → ℝ) : Option M3 :=
  let s (x : ℝ) (m : M3) : M3 := fun i j => m i j * x
  if ibrav = 1 then some (s (cd 0) ![![1, 0, 0], ![0, 1, 0], ![0, 0, 1]])
  else if ibrav = 2 then some (s (cd 0 / 2) ![![-1, 0, 1], ![0, 1, 1], ![-1, 1, 0]])
  else if ibrav = 3 then some (s (cd 0 / 2) ![![1, 1, 1], ![-1, 1, 1], ![-1, -1, 1]])
  else if ibrav = -3 then some (s (cd 0 / 2) ![![-1, 1, 1], ![1, -1, 1], ![1, 1, -1]])
  else if ibrav = 4 then
    some (s (cd 0) ![![1, 0, 0], ![-(1 / 2), 1 / 2 * Real.sqrt 3, 0], ![0, 0, cd 2]])
  else if ibrav = 5 then
    let tx := Real.sqrt ((1 - cd 3) / 2)
    let ty := Real.sqrt ((1 - cd 3) / 6)
    let tz := Real.sqrt ((1 + 2 * cd 3) / 3)
    some (s (cd 0) ![![tx, -ty, tz], ![0, 2 * ty, tz], ![-tx, -ty, tz]])
  else if ibrav = -5 then
    let ty := Real.sqrt ((1 - cd 3) / 6)
    let tz := Real.sqrt ((1 + 2 * cd 3) / 3)
    let u := tz - 2 * Real.sqrt 2 * ty
    let v := tz + Real.sqrt 2 * ty
    some (s (cd 0 / Real.sqrt 3) ![![u, v, v], ![v, u, v], ![v, v, u]])
  else if ibrav = 6 then some (s (cd 0) ![![1, 0, 0], ![0, 1, 0], ![0, 0, cd 2]])
  else if ibrav = 7 then some (s (cd 0 / 2) ![![1, -1, cd 2], ![1, 1, cd 2], ![-1, -1, cd 2]])
  else if ibrav = 8 then some (s (cd 0) ![![1, 0, 0], ![0, cd 1, 0], ![0, 0, cd 2]])
  else if ibrav = 9 then
    some (s (cd 0) ![![1 / 2, 1 / 2 * cd 1, 0], ![-(1 / 2), 1 / 2 * cd 1, 0], ![0, 0, cd 2]])
  else if ibrav = -9 then
    some (s (cd 0) ![![1 / 2, -(1 / 2) * cd 1, 0], ![1 / 2, 1 / 2 * cd 1, 0], ![0, 0, cd 2]])
  else if ibrav = 91 then
    some (s (cd 0) ![![1, 0, 0], ![0, 1 / 2 * cd 1, -(1 / 2) * cd 2], ![0, 1 / 2 * cd 1, 1 / 2 * cd 2]])
  else if ibrav = 10 then some (s (cd 0 / 2) ![![1, 0, cd 2], ![1, cd 1, 0], ![0, cd 1, cd 2]])
  else if ibrav = 11 then
    some (s (cd 0 / 2) ![![1, cd 1, cd 2], ![-1, cd 1, cd 2], ![-1, -cd 1, cd 2]])
  else if ibrav = 12 then
    let cos := cd 3
    let sin := Real.sqrt (1 - cos ^ 2)
    some (s (cd 0) ![![1, 0, 0], ![cd 1 * cos, cd 1 * sin, 0], ![0, 0, cd 2]])
  else if ibrav = -12 then
    let cos := cd 4
    let sin := Real.sqrt (1 - cos ^ 2)
    some (s (cd 0) ![![1, 0, 0], ![0, cd 1, 0], ![cd 2 * cos, 0, cd 2 * sin]])
  else if ibrav = 13 then
    let cos := cd 3
    let sin := Real.sqrt (1 - cos ^ 2)
    some (s (cd 0) ![![1 / 2, 0, -(1 / 2) * cd 2], ![cd 1 * cos, cd 1 * sin, 0],
      ![1 / 2, 0, 1 / 2 * cd 2]])
  else if ibrav = -13 then
    let cos := cd 4
    let sin := Real.sqrt (1 - cos ^ 2)
    some (s (cd 0) ![![1 / 2, 1 / 2 * cd 1, 0], ![-(1 / 2), 1 / 2 * cd 1, 0],
      ![cd 2 * cos, 0, cd 2 * sin]])
  else if ibrav = 14 then
    let cosc := cd 5
    let sinc := Real.sqrt (1 - cosc ^ 2)
    let cosa := cd 3
    let cosb := cd 4
    let ex1 := (cosa - cosb * cosc) / sinc
    let ex2 := Real.sqrt (1 + 2 * cosa * cosb * cosc - cosa ^ 2 - cosb ^ 2 - cosc ^ 2) / sinc
    some (s (cd 0) ![![1, 0, 0], ![cd 1 * cosc, cd 1 * sinc, 0],
      ![cd 2 * cosb, cd 2 * ex1, cd 2 * ex2]])
  else none

/-- `elphmod/bravais.py` 79-95: `celldm` from the traditional constants. -/
noncomputable def celldmOf (ibrav : Int) (a0 a b c cosbc cosac cosab : ℝ) : Fin 6 → ℝ :=
  if ibrav = 0 ∨ ibrav = 14 then ![a / a0, b / a, c / a, cosbc, cosac, cosab]
  else if ibrav = -13 ∨ ibrav = -12 then ![a / a0, b / a, c / a, 0, cosac, 0]
  else if ibrav = -5 ∨ ibrav = 5 ∨ ibrav = 12 ∨ ibrav = 13 then ![a / a0, b / a, c / a, cosab, 0, 0]
  else ![a / a0, b / a, c / a, 0, 0, 0]

/-- `elphmod/bravais.py` 97-98: conversion to angstrom, in place. -/
noncomputable def convert (bohr : Bool) (a0 : ℝ) (cd : Fin 6 → ℝ) : Fin 6 → ℝ :=
  if bohr then cd else Function.update cd 0 (cd 0 * a0)

/-- Units of the cell parameters used for `ibrav = 0` (substrings tested in lines 106-111). -/
inductive CellUnits
  | alat
  | angstrom
  | bohr
  | other
  deriving DecidableEq

/-- `elphmod/bravais.py` 100-113: free lattice. -/
noncomputable def freeCell (bohr : Bool) (a0 : ℝ) (cd : Fin 6 → ℝ) (r : M3) (u : CellUnits) : M3 :=
  fun i j =>
    if u = .alat then r i j * cd 0
    else if bohr ∧ u = .angstrom then r i j / a0
    else if ¬bohr ∧ u = .bohr then r i j * a0
    else r i j

/-- `elphmod/bravais.py` 50-280 (`primitives`): result and, if `celldm` has been given, its value after
the call (line 98 changes the list of the caller). -/
noncomputable def primitives (ibrav : Int) (a0 a b c cosbc cosac cosab : ℝ)
    (celldm : Option (Fin 6 → ℝ)) (bohr : Bool) (cell : Option (M3 × CellUnits)) :
    Option M3 × Option (Fin 6 → ℝ) :=
  let cd := convert bohr a0 (celldm.getD (celldmOf ibrav a0 a b c cosbc cosac cosab))
  (if ibrav = 0 then cell.map fun rc => freeCell bohr a0 cd rc.1 rc.2 else latgen ibrav cd,
    celldm.map fun _ => cd)

/-! ### `mesh` -/

/-- All indices of an array of the given shape in C order. -/
def indices : List Nat → List (List Nat)
  | [] => [[]]
  | n :: ns => (List.range n).flatMap fun i => (indices ns).map fun is => i :: is

/-- `elphmod/bravais.py` 2661-2662: coordinates of the point with given indices. -/
noncomputable def meshPoint (n idx : List Nat) : List ℝ :=
  (idx.zip n).map fun p => 2 * Real.pi * (p.1 : ℝ) / (p.2 : ℝ)

/-- `elphmod/bravais.py` 2646-2667 (`mesh` with `flat=True`): `reshape((-1, len(n)))` lists the points in
C order. -/
noncomputable def meshFlat (n : List Nat) : List (List ℝ) := (indices n).map (meshPoint n)

/-- `elphmod/bravais.py` 2681-2682: an omitted (or zero) number is replaced by the one typed in. -/
def axisPoints (n : Option Nat) (typed : Nat) : Nat :=
  match n with
  | some (k + 1) => k + 1
  | _ => typed

/-- `elphmod/bravais.py` 2669-2694 (`kpoints`): number of points and the numbers printed per line. -/
noncomputable def kpoints (nk : List Nat) (weights : Bool) : Nat × List (List ℝ) :=
  (nk.prod, (meshFlat nk).map fun k =>
    k.map (fun c => c / (2 * Real.pi)) ++ if weights then [1 / (nk.prod : ℝ)] else [])

end Verif.Bravais
