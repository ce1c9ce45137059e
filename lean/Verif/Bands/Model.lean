import Verif.MPI.Model
import Mathlib.Analysis.Complex.Norm
import Mathlib.Analysis.SpecialFunctions.Complex.Circle
import Mathlib.Data.List.Sort

/-!
# Model of `elphmod/dispersion.py`: `band_order`, `map_dispersions`, `unfolding_weights`
-/

namespace Verif.Bands

/-- `max(available, key=key)`: first element with the largest key in the order of iteration. -/
noncomputable def argmax (key : Nat → ℝ) : List Nat → Option Nat
  | [] => none
  | j :: l => match argmax key l with
    | none => some j
    | some m => if key m ≤ key j then some j else some m

/-- `elphmod/dispersion.py` 477-484 and 519-526: greedy assignment. `available` are the bands not yet
used, in the order in which Python iterates over the set; `none` for `max` of an empty set. -/
noncomputable def greedy (key : Nat → Nat → ℝ) : List Nat → List Nat → Option (List Nat)
  | _, [] => some []
  | available, i :: is =>
    match argmax (key i) available with
    | none => none
    | some j => (greedy key (available.erase j) is).map fun r => j :: r

/-- `abs(np.dot(u, v.conj()))`. -/
noncomputable def overlap {d : Nat} (u v : Fin d → ℂ) : ℝ := ‖∑ x, u x * star (v x)‖

/-- `elphmod/dispersion.py` 481-482: key for band `i`; `dv = none` stands for infinity. `V n j` is
column `j` of the matrix of eigenvectors at point `n`, `prev` is the row `o[n0]`. -/
noncomputable def orderKey {d : Nat} (v : Nat → Nat → ℝ) (V : Nat → Nat → Fin d → ℂ) (dv : Option ℝ)
    (n0 n : Nat) (prev : List Nat) (i j : Nat) : ℝ :=
  let p := prev.getD i 0
  match dv with
  | none => overlap (V n0 p) (V n j)
  | some dv => if |v n0 p - v n j| < dv then overlap (V n0 p) (V n j) else 0

/-- `elphmod/dispersion.py` 490: all differences of consecutive eigenvalues exceed `eps`. -/
def nondegenerate (v : Nat → ℝ) (bands : Nat) (eps : ℝ) : Prop :=
  ∀ i, i + 1 < bands → eps < |v (i + 1) - v i|

open Classical in
/-- `elphmod/dispersion.py` 474-494: rows `o[n], o[n + 1], ...` of the remaining `m` points. `ord n` is the
order of iteration of `set(range(bands))` at point `n`. -/
noncomputable def orderRows {d : Nat} (bands : Nat) (v : Nat → Nat → ℝ) (V : Nat → Nat → Fin d → ℂ)
    (dv : Option ℝ) (eps : ℝ) (ord : Nat → List Nat) :
    (m n n0 : Nat) → (prev : List Nat) → Option (List (List Nat))
  | 0, _, _, _ => some []
  | m + 1, n, n0, prev =>
    match greedy (orderKey v V dv n0 n prev) (ord n) (List.range bands) with
    | none => none
    | some row =>
      (if nondegenerate (v n) bands eps then orderRows bands v V dv eps ord m (n + 1) n row
        else orderRows bands v V dv eps ord m (n + 1) n0 prev).map fun rows => row :: rows

/-- `elphmod/dispersion.py` 467-494: array `o` before the sorting of columns. -/
noncomputable def rawOrder {d : Nat} (points bands : Nat) (v : Nat → Nat → ℝ)
    (V : Nat → Nat → Fin d → ℂ) (dv : Option ℝ) (eps : ℝ) (ord : Nat → List Nat) :
    Option (List (List Nat)) :=
  match points with
  | 0 => none
  | m + 1 => (orderRows bands v V dv eps ord m 1 0 (List.range bands)).map fun rows =>
      List.range bands :: rows

/-- `elphmod/dispersion.py` 497: sum of the eigenvalues of column `i` over all points. -/
def columnSum (v : Nat → Nat → ℝ) : Nat → List (List Nat) → Nat → ℝ
  | _, [], _ => 0
  | n, row :: rows, i => v n (row.getD i 0) + columnSum v (n + 1) rows i

open Classical in
/-- `elphmod/dispersion.py` 447-499 (`band_order`). Sorting is stable. -/
noncomputable def bandOrder {d : Nat} (points bands : Nat) (v : Nat → Nat → ℝ)
    (V : Nat → Nat → Fin d → ℂ) (byMean : Bool) (dv : Option ℝ) (eps : ℝ) (ord : Nat → List Nat) :
    Option (List (List Nat)) :=
  (rawOrder points bands v V dv eps ord).map fun o =>
    if byMean then
      let cols := (List.range bands).mergeSort fun i j => decide (columnSum v 0 o i ≤ columnSum v 0 o j)
      o.map fun row => cols.map fun i => row.getD i 0
    else o

/-- `elphmod/dispersion.py` 506-528 (`map_dispersions`) for one point. -/
noncomputable def mapBands {d : Nat} (bands : Nat) (V1 V2 : Nat → Fin d → ℂ) (ord : List Nat) :
    Option (List Nat) :=
  greedy (fun i j => overlap (V1 i) (V2 j)) ord (List.range bands)

/-! ### `unfolding_weights` -/

/-- `elphmod/dispersion.py` 566-596 (`unfolding_weights`) for one k point and one supercell state `n`
and the default blocks: `U0 a m` and `U (r, a) n` are the eigenvectors, `phase r` is
`np.exp(sgn * 1j * np.dot(k, R[r]))`. The index of block `r` and orbital `a` is the pair `(r, a)`. -/
noncomputable def weight {c b0 d0 : Nat} (bands : Nat) (phase : Fin c → ℂ) (U0 : Fin d0 → Fin b0 → ℂ)
    {β : Type} (U : Fin c × Fin d0 → β → ℂ) (n : β) : ℝ :=
  ∑ m : Fin b0, ‖∑ r : Fin c, phase r *
    ∑ a : Fin d0, star (U0 a m / (Real.sqrt ((bands : ℝ) / (b0 : ℝ)) : ℂ)) * U (r, a) n‖ ^ 2

/-- `elphmod/dispersion.py` 584: `np.exp(sgn * 1j * np.dot(k[ik], R[ir]))`. -/
noncomputable def cellPhase {c : Nat} (sgn : ℝ) (k : Fin 3 → ℝ) (R : Fin c → Fin 3 → ℝ) (r : Fin c) : ℂ :=
  Complex.exp (((sgn * ∑ i, k i * R r i : ℝ) : ℂ) * Complex.I)

/-- `elphmod/dispersion.py` 530-596 (`unfolding_weights`) for one k point and one supercell state. -/
noncomputable def unfoldingWeight {c b0 d0 : Nat} (bands : Nat) (sgn : ℝ) (k : Fin 3 → ℝ)
    (R : Fin c → Fin 3 → ℝ) (U0 : Fin d0 → Fin b0 → ℂ) {β : Type} (U : Fin c × Fin d0 → β → ℂ) (n : β) : ℝ :=
  weight bands (cellPhase sgn k R) U0 U n

end Verif.Bands
