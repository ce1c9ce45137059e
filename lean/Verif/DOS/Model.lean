import Verif.MPI.Model
import Mathlib.Data.Real.Basic
import Mathlib.Algebra.Order.Monoid.Unbundled.WithTop
import Mathlib.Algebra.BigOperators.Group.Finset.Basic

/-!
# Model of `elphmod/dos.py`: `hexDOS`

Energies are exact reals; `float('inf')` is `⊤` of `WithTop ℝ`.
-/

namespace Verif.DOS

/-- Energies at the corners of a triangle, ascending. -/
structure Tri where
  A : ℝ
  B : ℝ
  C : ℝ

/-- `sorted([a, b, c])`. -/
noncomputable def sort3 (a b c : ℝ) : Tri :=
  ⟨min (min a b) c, max (min a b) (min (max a b) c), max (max a b) c⟩

/-- `elphmod/dos.py` 71-80: list of triangles of an `N × N` mesh. -/
noncomputable def triangles (N : Nat) (e : Nat → Nat → ℝ) : List Tri :=
  (List.range N).flatMap fun i =>
    (List.range N).flatMap fun j =>
      (List.range 2).map fun k =>
        sort3 (e ((i + k) % N) ((j + k) % N)) (e ((i + 1) % N) j) (e i ((j + 1) % N))

open Classical in
/-- `elphmod/dos.py` 82-86: optional energy window. -/
noncomputable def window (minimum maximum : Option ℝ) (ts : List Tri) : List Tri :=
  let ts := match minimum with
    | none => ts
    | some m => ts.filter fun v => decide (m ≤ v.C)
  match maximum with
  | none => ts
  | some m => ts.filter fun v => decide (v.A ≤ m)

open Classical in
/-- `elphmod/dos.py` 94-110: contribution `D[n]` of one triangle. -/
noncomputable def contribution (E : ℝ) (v : Tri) : WithTop ℝ :=
  if v.A < E ∧ E ≤ v.B then
    if E = v.B ∧ v.B = v.C then ((0.5 / (E - v.A) : ℝ) : WithTop ℝ)
    else (((E - v.A) / (v.B - v.A) / (v.C - v.A) : ℝ) : WithTop ℝ)
  else if v.B ≤ E ∧ E < v.C then
    if E = v.A ∧ v.A = v.B then ((0.5 / (v.C - E) : ℝ) : WithTop ℝ)
    else (((v.C - E) / (v.C - v.A) / (v.C - v.B) : ℝ) : WithTop ℝ)
  else if E = v.A ∧ v.A = v.B ∧ v.B = v.C then ⊤
  else 0

/-- `elphmod/dos.py` 14-115 (`hexDOS`) with `size` processes: the triangles are dealt round robin (88-89),
every process sums its contributions and the sums are added (112: `comm.allreduce(D.sum()) / N ** 2`). -/
noncomputable def hexDOS (size N : Nat) (e : Nat → Nat → ℝ) (minimum maximum : Option ℝ) (E : ℝ) :
    WithTop ℝ :=
  (∑ rank ∈ Finset.range size,
    ((Verif.MPI.deal size rank (window minimum maximum (triangles N e))).map (contribution E)).sum).map
      (· / (N : ℝ) ^ 2)

end Verif.DOS
