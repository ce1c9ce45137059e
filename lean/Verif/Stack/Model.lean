import Mathlib.Algebra.Order.Field.Basic
import Mathlib.Algebra.Order.Floor.Ring
import Mathlib.Algebra.BigOperators.Fin
import Mathlib.Logic.Function.Basic

/-!
# Model of `elphmod/bravais.py`: `stack`

One column of points (the code treats all columns independently). Numbers are elements of an
ordered field with floor function (e.g. the real numbers).
-/

namespace Verif.Stack

variable {K : Type} [Field K] [LinearOrder K] [IsStrictOrderedRing K] [FloorRing K]

/-- Python's `x % period` for `period > 0` (`elphmod/bravais.py` 734). -/
def fmod (x L : K) : K := x - ⌊x / L⌋ * L

/-- Arithmetic mean. -/
def mean {n : Nat} (p : Fin n → K) : K := (∑ i, p i) / n

/-- Variance, the square of `np.std`. -/
def var {n : Nat} (p : Fin n → K) : K := (∑ i, (p i - mean p) ^ 2) / n

/-- Loop in `elphmod/bravais.py` 754-756: stacking number `m`. `order` is the result of
`np.argsort`. -/
def stacking {n : Nat} (L : K) (p : Fin n → K) (order : Fin n → Fin n) : Nat → Fin n → K
  | 0 => p
  | m + 1 =>
    let s := stacking L p order m
    if h : m < n then Function.update s (order ⟨m, h⟩) (s (order ⟨m, h⟩) + L) else s

/-- `np.argmin`: first position of the smallest of `f 0`, ..., `f n`. -/
def argmin (f : Nat → K) : Nat → Nat
  | 0 => 0
  | n + 1 => let j := argmin f n; if f (n + 1) < f j then n + 1 else j

/-- `elphmod/bravais.py` 704-763 (`stack`) for `n + 1` points. The smallest standard deviation is
the smallest variance. `order` stands for the result of `np.argsort` applied to the points mapped
to `[0, period)`. -/
def stack {n : Nat} (points : Fin (n + 1) → K) (L : K) (order : Fin (n + 1) → Fin (n + 1)) :
    Fin (n + 1) → K :=
  let p := fun i => fmod (points i) L
  stacking L p order (argmin (fun m => var (stacking L p order m)) n)

/-- Contract of `np.argsort`: a permutation that sorts. -/
def IsArgsort {n : Nat} (p : Fin n → K) (order : Fin n → Fin n) : Prop :=
  Function.Bijective order ∧ ∀ i j, i ≤ j → p (order i) ≤ p (order j)

end Verif.Stack
