import Verif.Fourier.Model
import Verif.Lattice.Model
import Mathlib.Analysis.Normed.Group.Basic
import Mathlib.Data.Finset.Lattice.Fold

/-!
# Model of the localized models in `elphmod/el.py`, `elphmod/ph.py` and `elphmod/elel.py`

A localized model is the list of its lattice vectors (`R`) with the corresponding matrices (`data`).
`K` is the type of the matrix elements (complex for `el` and `elel`, real for `ph`), `α` the type of
orbital (or displacement) indices. In a supercell model, the index `i * self.size + a` is the pair
`(i, a)`. All methods compute on the first process and broadcast the result (arrays and their
lengths), which is not modelled here (see C01-C06). A Python dictionary is the list of its items in
order of insertion.
-/

namespace Verif.TB

open Verif.Lattice (V3 Supercell toSupercell vadd vsub comb smul cross)
open Verif.Fourier (phase bloch)

/-- Lattice vectors with blocks. -/
abbrev Blocks (α K : Type) := List (V3 × (α → α → K))

/-- Complex data of an `el` or `elel` model, real data of a `ph` model: Bloch sums, `elphmod/el.py` 124,
`elphmod/elel.py` 75 and `elphmod/ph.py` 167 (without long-range terms). -/
noncomputable def dynMat {α : Type} (l : Blocks α ℝ) (q : Fin 3 → ℝ) (x y : α) : ℂ :=
  bloch (l.map fun e => (e.1, fun x y => (e.2 x y : ℂ))) q x y

/-- `elphmod/el.py` 126-144 (`v`): component `x` of the velocity operator. -/
noncomputable def velocity {α : Type} (l : Blocks α ℂ) (x : Fin 3) (k : Fin 3 → ℝ) (a b : α) : ℂ :=
  (l.map fun e => Complex.I * ((![e.1.1, e.1.2.1, e.1.2.2] x : Int) : ℂ) * e.2 a b * phase e.1 k).sum

/-! ### `standardize` -/

/-- `const[R] += M` if `R` is a key, `const[R] = M` otherwise: `elphmod/el.py` 546-549. -/
def addTo {α K : Type} [Add K] (d : Blocks α K) (R : V3) (M : α → α → K) : Blocks α K :=
  if R ∈ d.map Prod.fst then d.map fun e => if e.1 = R then (e.1, fun a b => e.2 a b + M a b) else e
  else d ++ [(R, M)]

/-- `-R`. -/
def vneg (R : V3) : V3 := (-R.1, -R.2.1, -R.2.2)

open Classical in
/-- One round of the loop, `elphmod/el.py` 542-557, `elphmod/ph.py` 868-883, `elphmod/elel.py` 241-249. `dag` is
`M.T.conj()` in `el` and `M.T` in `ph`; there is no symmetrization in `elel`. -/
noncomputable def standardizeStep {α K : Type} [AddMonoid K] (dag : (α → α → K) → α → α → K) (symmetrize : Bool)
    (d : Blocks α K) (e : V3 × (α → α → K)) : Blocks α K :=
  if ∃ a b, e.2 a b ≠ 0 then
    let d := addTo d e.1 e.2
    if symmetrize then addTo d (vneg e.1) (dag e.2) else d
  else d

/-- Order of tuples of three integers. -/
def lexLe (R S : V3) : Bool :=
  decide (R.1 < S.1) || (decide (R.1 = S.1) &&
    (decide (R.2.1 < S.2.1) || (decide (R.2.1 = S.2.1) && decide (R.2.2 ≤ S.2.2))))

/-- `const[R]` (zero if `R` is no key). -/
def get {α K : Type} [Zero K] (d : Blocks α K) (R : V3) : α → α → K :=
  ((d.find? fun e => e.1 = R).map Prod.snd).getD fun _ _ => 0

/-- `elphmod/el.py` 561-565: `sorted(list(const.keys()))`, `[const[R] for R in cells]`. -/
def sortDict {α K : Type} [Zero K] (d : Blocks α K) : Blocks α K :=
  ((d.map Prod.fst).mergeSort lexLe).map fun R => (R, get d R)

/-- `abs(self.data).max()`. -/
noncomputable def maxAbs {α K : Type} [Fintype α] [NormedAddCommGroup K] (l : Blocks α K) : NNReal :=
  (l.map fun e => Finset.univ.sup fun a => Finset.univ.sup fun b => ‖e.2 a b‖₊).foldr max 0

open Classical in
/-- `elphmod/el.py` 533-534: `if eps: self.data[abs(self.data) < eps * abs(self.data).max()] = 0.0`. -/
noncomputable def threshold {α K : Type} [Fintype α] [NormedAddCommGroup K] (eps : ℝ) (l : Blocks α K) :
    Blocks α K :=
  if eps ≠ 0 then
    l.map fun e => (e.1, fun a b => if ‖e.2 a b‖ < eps * (maxAbs l : ℝ) then 0 else e.2 a b)
  else l

/-- The loop of `standardize` without threshold: `elphmod/el.py` 536-568 (before division by two). -/
noncomputable def collect {α K : Type} [AddMonoid K] (dag : (α → α → K) → α → α → K) (symmetrize : Bool)
    (l : Blocks α K) : Blocks α K :=
  sortDict (l.foldl (standardizeStep dag symmetrize) [])

/-- `M.T.conj()`. -/
noncomputable def dagger {α : Type} (M : α → α → ℂ) : α → α → ℂ := fun a b => star (M b a)

/-- `elphmod/el.py` 510-577 (`standardize`). -/
noncomputable def elStandardize {α : Type} [Fintype α] (eps : ℝ) (symmetrize : Bool) (l : Blocks α ℂ) : Blocks α ℂ :=
  let l := collect dagger symmetrize (threshold eps l)
  if symmetrize then l.map fun e => (e.1, fun a b => e.2 a b / 2) else l

/-- `elphmod/ph.py` 841-900 (`standardize`); the data is real. -/
noncomputable def phStandardize {α : Type} [Fintype α] (eps : ℝ) (symmetrize : Bool) (l : Blocks α ℝ) : Blocks α ℝ :=
  let l := collect (fun M a b => M b a) symmetrize (threshold eps l)
  if symmetrize then l.map fun e => (e.1, fun a b => e.2 a b / 2) else l

/-- `elphmod/elel.py` 216-264 (`standardize`). -/
noncomputable def elelStandardize {α : Type} [Fintype α] (eps : ℝ) (l : Blocks α ℂ) : Blocks α ℂ :=
  collect dagger false (threshold eps l)

/-! ### `supercell` -/

/-- `elphmod/el.py` 368-371: `const[R][A:A + self.size, B:B + self.size] = M` with `A = i * self.size` and
`B = r * self.size`, after `const[R] = np.zeros(…)` if `R` is no key. -/
def setBlock {α K : Type} [Zero K] (d : Blocks (Nat × α) K) (R : V3) (i r : Nat) (M : α → α → K) :
    Blocks (Nat × α) K :=
  let d := if R ∈ d.map Prod.fst then d else d ++ [(R, fun _ _ => 0)]
  d.map fun e => if e.1 = R then
    (e.1, fun a b => if a.1 = i ∧ b.1 = r then M a.2 b.2 else e.2 a b) else e

/-- The rounds of the two loops in `elphmod/el.py` 352-360, `elphmod/ph.py` 636-642, `elphmod/elel.py` 181-186:
supercell lattice vector, indices of the cells of the two orbitals, matrix. `none` for an exception. -/
def foldOps {α K : Type} (s : Supercell) (l : Blocks α K) : Option (List (V3 × Nat × Nat × (α → α → K))) :=
  ((List.range s.cells.length).flatMap fun i => l.map fun e =>
    (toSupercell (vadd e.1 (s.cells.getD i (0, 0, 0))) s).map fun Rr => (Rr.1, i, Rr.2, e.2)).mapM id

/-- `elphmod/el.py` 346-403, `elphmod/ph.py` 629-680, `elphmod/elel.py` 174-214: `supercell` for a supercell
returned by `bravais.supercell`. -/
def supercell {α K : Type} [Zero K] (s : Supercell) (l : Blocks α K) : Option (Blocks (Nat × α) K) :=
  (foldOps s l).map fun ops => ops.foldl (fun d o => setBlock d o.1 o.2.1 o.2.2.1 o.2.2.2) []

/-- `elphmod/el.py` 362-366 (`sparse=True`): the attribute `Hs`; `elphmod/ph.py` 644-646: `Ds` without long-range
terms. -/
def sparseSupercell {α : Type} (s : Supercell) (l : Blocks α ℝ) : Option (Nat × α → Nat × α → ℝ) :=
  (foldOps s l).map fun ops => ops.foldl (fun d o => fun a b =>
    if a.1 = o.2.1 ∧ b.1 = o.2.2.1 then d a b + o.2.2.2 a.2 b.2 else d a b) fun _ _ => 0

open Classical in
/-- `elphmod/el.py` 420-433, `elphmod/ph.py` 736-746 (`unit_cell`): `N` and `cells` are attributes of the supercell
model. -/
noncomputable def unitCell {α K : Type} [Zero K] (N1 N2 N3 : V3) (cells : List V3) (l : Blocks (Nat × α) K) :
    Blocks α K :=
  (l.flatMap fun e => (List.range cells.length).map fun i => (e, i)).foldl (fun d ei =>
    let t : α → α → K := fun a b => ei.1.2 (0, a) (ei.2, b)
    if ∃ a b, t a b ≠ 0 then
      let R := vadd (comb ei.1.1 N1 N2 N3) (cells.getD ei.2 (0, 0, 0))
      if R ∈ d.map Prod.fst then d.map fun f => if f.1 = R then (f.1, t) else f else d ++ [(R, t)]
    else d) []

/-- `elphmod/ph.py` 695-698: primitive vectors of the unit cell, `np.dot(np.array([B1, B2, B3]).T, self.a) /
len(self.cells)`. -/
noncomputable def unitVectors (N1 N2 N3 : V3) (ncells : Nat) (a : Fin 3 → Fin 3 → ℝ) (i x : Fin 3) : ℝ :=
  let B := ![cross N2 N3, cross N3 N1, cross N1 N2]
  (∑ j, ((![(B j).1, (B j).2.1, (B j).2.2] i : Int) : ℝ) * a j x) / ncells

/-- `elphmod/ph.py` 586: primitive vectors of the supercell, `np.dot(ph.N, self.a)`. -/
noncomputable def superVectors (N1 N2 N3 : V3) (a : Fin 3 → Fin 3 → ℝ) (j x : Fin 3) : ℝ :=
  let N := ![N1, N2, N3]
  ∑ i, ((![(N j).1, (N j).2.1, (N j).2.2] i : Int) : ℝ) * a i x

/-! ### `order_orbitals`, `shift_orbitals` -/

/-- `elphmod/el.py` 452-467 (`order_orbitals`), `elphmod/ph.py` 764-795 (`order_atoms`, data only): `order` maps new
to old indices. -/
def order {α β K : Type} (f : β → α) (l : Blocks α K) : Blocks β K :=
  l.map fun e => (e.1, fun a b => e.2 (f a) (f b))

/-- `elphmod/el.py` 486-503 (`shift_orbitals` before `standardize`), `elphmod/ph.py` 812-832: `s` tells whether an
orbital is shifted. -/
def shiftBlocks {α K : Type} [Zero K] (s : α → Bool) (S : V3) (l : Blocks α K) : Blocks α K :=
  (l.map fun e => (vsub e.1 S, fun a b => if s b && !s a then e.2 a b else 0)) ++
  (l.map fun e => (e.1, fun a b => if s a && s b then e.2 a b else if s a || s b then 0 else e.2 a b)) ++
  (l.map fun e => (vadd e.1 S, fun a b => if s a && !s b then e.2 a b else 0))

/-- `elphmod/el.py` 469-508 (`shift_orbitals`). -/
noncomputable def elShift {α : Type} [Fintype α] (s : α → Bool) (S : V3) (l : Blocks α ℂ) : Blocks α ℂ :=
  elStandardize 0 false (shiftBlocks s S l)

/-- `elphmod/ph.py` 797-839 (`shift_atoms`), force constants only. -/
noncomputable def phShift {α : Type} [Fintype α] (s : α → Bool) (S : V3) (l : Blocks α ℝ) : Blocks α ℝ :=
  phStandardize 0 false (shiftBlocks s S l)

end Verif.TB
