import Verif.MPI.Model
import Mathlib.Algebra.Order.Field.Basic
import Mathlib.Algebra.Order.Floor.Ring
import Mathlib.Algebra.Module.Defs
import Mathlib.Data.Fin.VecNotation

/-!
# Model of `elphmod/bravais.py`: `linear_interpolation`, `resize`

Coordinates are elements of an ordered field with floor function, data points elements of a vector
space over this field. Arrays are functions of integer indices of which only those in range are used.
-/

namespace Verif.Interp

variable {K : Type} [Field K] [LinearOrder K] [IsStrictOrderedRing K] [FloorRing K]
variable {V : Type} [AddCommGroup V] [Module K V]

/-- The optional call of `stack` (e.g. `elphmod/bravais.py` 841-842): a function that is applied to
the corner points, the identity if no period is given. -/
abbrev Stk (V : Type) := (n : Nat) → (Fin n → V) → (Fin n → V)

/-- No period. -/
def noStk : Stk V := fun _ v => v

/-- `elphmod/bravais.py` 818-822 (`split`): `divmod(n, 1)` and reduction modulo `N`. -/
def split (n : K) (N : Int) : Int × K := (⌊n⌋ % N, Int.fract n)

/-- `elphmod/bravais.py` 831-844. -/
def interp1 (stk : Stk V) (data : Int → V) (N : Int) (n : K) : V :=
  let (n0, dn) := split n N
  let v := stk 2 ![data n0, data ((n0 + 1) % N)]
  (1 - dn) • v 0 + dn • v 1

/-- `elphmod/bravais.py` 846-876. -/
def interp60 (stk : Stk V) (data : Int → Int → V) (N M : Int) (n m : K) : V :=
  let (n0, dn) := split n N
  let (m0, dm) := split m M
  let A := data ((n0 + 1) % N) m0
  let B := data n0 ((m0 + 1) % M)
  if dn + dm > 1 then
    let v := stk 3 ![A, B, data ((n0 + 1) % N) ((m0 + 1) % M)]
    (1 - dm) • v 0 + (1 - dn) • v 1 + (dn + dm - 1) • v 2
  else
    let v := stk 3 ![A, B, data n0 m0]
    dn • v 0 + dm • v 1 + (1 - dn - dm) • v 2

/-- `elphmod/bravais.py` 878-899. -/
def interp90 (stk : Stk V) (data : Int → Int → V) (N M : Int) (n m : K) : V :=
  let (n0, dn) := split n N
  let (m0, dm) := split m M
  let A := data n0 m0
  let B := data ((n0 + 1) % N) m0
  let C := data ((n0 + 1) % N) ((m0 + 1) % M)
  let D := data n0 ((m0 + 1) % M)
  let v := stk 4 ![A, B, C, D]
  ((1 - dn) * (1 - dm)) • v 0 + (dn * (1 - dm)) • v 1 + (dn * dm) • v 2 + ((1 - dn) * dm) • v 3

/-- `elphmod/bravais.py` 901-931. -/
def interp120 (stk : Stk V) (data : Int → Int → V) (N M : Int) (n m : K) : V :=
  let (n0, dn) := split n N
  let (m0, dm) := split m M
  let A := data n0 m0
  let B := data ((n0 + 1) % N) ((m0 + 1) % M)
  if dn > dm then
    let v := stk 3 ![A, B, data ((n0 + 1) % N) m0]
    (1 - dn) • v 0 + dm • v 1 + (dn - dm) • v 2
  else
    let v := stk 3 ![A, B, data n0 ((m0 + 1) % M)]
    (1 - dm) • v 0 + dn • v 1 + (dm - dn) • v 2

/-- Angle between lattice vectors. -/
inductive Angle
  | a60
  | a90
  | a120
  deriving DecidableEq, Repr

/-- `linear_interpolation` for two axes. -/
def interp2 : Angle → Stk V → (Int → Int → V) → Int → Int → K → K → V
  | .a60 => interp60
  | .a90 => interp90
  | .a120 => interp120

/-- `elphmod/bravais.py` 984-987: step between new mesh points in units of the old mesh
(`N`: old, `S`: new number of points). -/
def scale (periodic : Bool) (N S : Nat) : K :=
  if periodic then (N : K) / S else ((N : K) - 1) / ((S : K) - 1)

/-- `elphmod/bravais.py` 937-1005 (`resize`) for two axes on `procs` processes: the gathered flat
list of new values. The data type of the array is assumed to hold the interpolated values (see
`C62_integer_resize_violated` otherwise). -/
def resize2 (procs : Nat) (angle : Angle) (stk : Stk V) (periodic : Bool) (data : Int → Int → V)
    (N M : Nat) (S0 S1 : Nat) : Option (List V) :=
  (Verif.MPI.distribute (S0 * S1) procs).map fun p =>
    Verif.MPI.gatherv ((List.range procs).map fun rank =>
      (Verif.MPI.boundsRange p.2 rank).map fun m : Nat =>
        interp2 angle stk data N M (((m / S1 : Nat) : K) * scale periodic N S0)
          (((m % S1 : Nat) : K) * scale periodic M S1))

/-- The same for one axis. -/
def resize1 (procs : Nat) (stk : Stk V) (periodic : Bool) (data : Int → V)
    (N : Nat) (S : Nat) : Option (List V) :=
  (Verif.MPI.distribute S procs).map fun p =>
    Verif.MPI.gatherv ((List.range procs).map fun rank =>
      (Verif.MPI.boundsRange p.2 rank).map fun m : Nat =>
        interp1 stk data N ((m : K) * scale periodic N S))

end Verif.Interp
