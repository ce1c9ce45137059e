import Mathlib.Analysis.SpecialFunctions.Exp
import Mathlib.Data.Complex.Basic
import Verif.Text.Model

/-!
# Tight-binding model from Wannier90 data: `Model.__init__` and `read_wsvecdat` in `elphmod/el.py`

Exceptions are `none`. Wannier functions (`read_xsf`) and the broadcast from the first process are not modelled. For `read_hrdat`, see C15; for
the mapping to the Wigner-Seitz cell (`k2r` with `fft=False`), see C29.
-/

namespace Verif.ElInit

open Verif.Text

/-- Lattice vectors. -/
abbrev Vec := ℤ × ℤ × ℤ

/-- Matrices. -/
abbrev Mat (n : Nat) := Fin n → Fin n → ℂ

/-! ### `read_wsvecdat` -/

/-- Keys of `supvecs`: lattice vector and orbitals. -/
abbrev Key := Vec × Int × Int

/-- `next(data)`, `n` times, and `list(map(int, line.split()))`. -/
def intLines : Nat → List Str → Option (List (List Int) × List Str)
  | 0, ls => some ([], ls)
  | _ + 1, [] => none
  | n + 1, l :: ls => do
    let v ← (words l).mapM readInt
    let (vs, r) ← intLines n ls
    some (v :: vs, r)

/-- `elphmod/el.py` 757-761: loop over the lines; the number is an upper bound of the number of iterations. -/
def wsLoop : Nat → List Str → (Key → Option (List (List Int))) → Option (Key → Option (List (List Int)))
  | _, [], d => some d
  | 0, _ :: _, _ => none
  | n + 1, l :: ls, d =>
    match (words l).mapM readInt, ls with
    | some [i, j, k, a, b], c :: ls =>
      match words c with
      | [c] => do
        let (vs, r) ← intLines (← readInt c).toNat ls
        wsLoop n r fun key => if key = ((i, j, k), a - 1, b - 1) then some vs else d key
      | _ => none
    | _, _ => none

/-- `elphmod/el.py` 746-768 (`read_wsvecdat`); the inner `none` is `None` (no file). -/
def readWsvec (file : Option (List Str)) : Option (Option (Key → Option (List (List Int)))) :=
  match file with
  | none => some none
  | some [] => none
  | some (_ :: ls) => (wsLoop ls.length ls fun _ => none).map some

/-! ### `Model.__init__` -/

/-- `elphmod/el.py` 226-230: `const[R][a, b] += t`, where a matrix of zeros is added if needed. -/
def addTo {n : Nat} (R : Vec) (a b : Fin n) (t : ℂ) : List (Vec × Mat n) → List (Vec × Mat n)
  | [] => [(R, fun c d => if c = a ∧ d = b then t else 0)]
  | (R', M) :: r => if R' = R then (R', fun c d => if c = a ∧ d = b then M c d + t else M c d) :: r else (R', M) :: addTo R a b t r

/-- A vector in `supvecs` as three numbers. -/
def three : List Int → Option Vec
  | [I, J, K] => some (I, J, K)
  | _ => none

/-- `elphmod/el.py` 219-230: one matrix element. -/
noncomputable def spread {n : Nat} (supvecs : Key → Option (List (List Int))) (p : Vec × Mat n) (const : List (Vec × Mat n)) (a b : Fin n) :
    Option (List (Vec × Mat n)) := do
  let vs ← supvecs (p.1, (a : Nat), (b : Nat))
  let t := p.2 a b / vs.length
  some ((← vs.mapM three).foldl (fun const T => addTo (p.1 + T) a b t const) const)

/-- `elphmod/el.py` 213-235: distribution of the matrix elements. -/
noncomputable def distribute {n : Nat} (supvecs : Key → Option (List (List Int))) (hr : List (Vec × Mat n)) : Option (List (Vec × Mat n)) :=
  hr.foldlM (fun const p => (List.finRange n).foldlM (fun const a => (List.finRange n).foldlM (fun const b => spread supvecs p const a b) const) const) []

/-- `elphmod/el.py` 210-211: `2 * self.R[np.all(self.R[:, x] == 0, axis=1)].max(initial=1)` for one direction. -/
def guess (other : Vec → Bool) (R : List Vec) : Int :=
  2 * (R.filter other).foldl (fun m v => max (max (max m v.1) v.2.1) v.2.2) 1

/-- `elphmod/el.py` 210-211 (`nk`). -/
def guessNk (R : List Vec) : Int × Int × Int :=
  (guess (fun v => v.2.1 = 0 ∧ v.2.2 = 0) R, guess (fun v => v.2.2 = 0 ∧ v.1 = 0) R, guess (fun v => v.1 = 0 ∧ v.2.1 = 0) R)

/-- `elphmod/el.py` 202-247: `R` and `data` as well as `nk` from the content `hr` of the *_hr.dat* file and the *_wsvec.dat* file; `Ry` is the
value of a Rydberg. -/
noncomputable def init {n : Nat} (Ry : ℝ) (hr : List (Vec × Mat n)) (wsvec : Option (List Str)) (divideNdegen rydberg : Bool) :
    Option (List (Vec × Mat n) × (Int × Int × Int)) := do
  let data : List (Vec × Mat n) := if rydberg then hr.map fun p => (p.1, fun a b => p.2 a b / (Ry : ℂ)) else hr
  let supvecs ← readWsvec wsvec
  let nk := guessNk (data.map (·.1))
  match supvecs, divideNdegen with
  | some supvecs, true => (distribute supvecs data).map fun const => (const, nk)
  | _, _ => some (data, nk)

/-! ### Files from RESPACK -/

/-- `elphmod/el.py` 187-188: default of `N`. -/
def defaultN (R : List Vec) : Option Vec := R.getLast?.map fun R => (2 * R.1, 2 * R.2.1, 2 * R.2.2)

/-- Index `R % N` (`np.zeros` requires that `N` is not negative; the remainder is defined and the axis not empty only if `N` is positive). -/
def wrap (N R : Int) : Option Nat := if 0 < N then some (R % N).toNat else none

/-- `elphmod/el.py` 197-201: `t[R1 % N[0], R2 % N[1], R3 % N[2]] = data[iR]` -/
def fill {α : Type} (N : Vec) (zero : α) (data : List (Vec × α)) : Option (Nat × Nat × Nat → α) :=
  data.foldlM (fun t p => do
    let i ← wrap N.1 p.1.1
    let j ← wrap N.2.1 p.1.2.1
    let k ← wrap N.2.2 p.1.2.2
    some fun ijk => if ijk = (i, j, k) then p.2 else t ijk) fun _ => zero

end Verif.ElInit
