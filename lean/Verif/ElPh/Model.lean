import Verif.TB.Model
import Verif.Phon.Model

/-!
# Model of `elphmod/elph.py`: real-space coupling, cache, standardization, sum rule, supercells

Arrays are functions of their indices; `X` is the type of displacement indices (the index `3 * na + x` is the pair
`(na, x)`), `O` the type of orbital indices. Sums over lattice vectors, which are distributed among processes and
reduced (C02, C03), are evaluated by one process here.
-/

namespace Verif.ElPh

open Verif.Lattice (V3 Supercell toSupercell vadd vsub)
open Verif.Fourier (phase)
open Verif.TB (lexLe vneg)
open Verif.Phon (Polar generateLongRange)

/-- Attributes `Rg`, `Rk` and `data` of `elphmod.elph.Model`. -/
structure Coupling (X O : Type) where
  ng : Nat
  nk : Nat
  Rg : Fin ng → V3
  Rk : Fin nk → V3
  data : Fin ng → X → Fin nk → O → O → ℂ

/-- `elphmod/elph.py` 199-203 (`g_lr`), `p` with the attributes of the phonon model after `prepare_long_range`. -/
noncomputable def gLr {n : Nat} (p : Polar n) (G : List (Fin 3 → ℝ)) (z : Fin n → Fin 3 → Fin 3 → ℝ)
    (qu : Option (Fin n → Fin 3 → Fin 3 → Fin 3 → ℝ)) (q : Fin 3 → ℝ) (i : Fin n × Fin 3) : ℂ :=
  ((generateLongRange { p with perp := false } G z qu q).map fun t => (t.1 : ℂ) * t.2 i).sum

/-- Attributes of the object: coupling, long-range term (if any; a function of the wave vector), cache. -/
structure State (X O : Type) where
  c : Coupling X O
  lr : Option ((Fin 3 → ℝ) → X → ℂ)
  Rk0 : Option (Fin c.nk)
  q : Option (Fin 3 → ℝ)
  gq : X → Fin c.nk → O → O → ℂ

/-- `elphmod/misc.py` 741-761 (`vector_index`): first index of a vector. -/
def vectorIndex {n : Nat} (R : Fin n → V3) (r : V3) : Option (Fin n) := (List.finRange n).find? fun i => R i = r

/-- `self.gq` as calculated in `elphmod/elph.py` 131-149 for the wave vector `q`. If there is a long-range term and no
lattice vector at the origin, the assignment is meaningless (see `DESIGN.md`), which is not modelled. -/
noncomputable def calcGq {X O : Type} [DecidableEq O] (s : State X O) (q : Fin 3 → ℝ) : X → Fin s.c.nk → O → O → ℂ :=
  fun x r a b => (∑ R, s.c.data R x r a b * phase (s.c.Rg R) q) +
    match s.lr with
    | none => 0
    | some f => if s.Rk0 = some r ∧ a = b then f q x else 0

open Classical in
/-- `elphmod/elph.py` 128-149: update of the cache (in the case of no update, `q` is the cached one). -/
noncomputable def refresh {X O : Type} [DecidableEq O] (s : State X O) (q : Fin 3 → ℝ) : State X O :=
  { s with q := some q, gq := if s.q = none ∨ s.q ≠ some q then calcGq s q else s.gq }

/-- `elphmod/elph.py` 90-197 (`g`) in the basis of orbitals and displacements: new state and result. -/
noncomputable def g {X O : Type} [DecidableEq O] (s : State X O) (q k : Fin 3 → ℝ) : State X O × (X → O → O → ℂ) :=
  (refresh s q, fun x a b => ∑ R, (refresh s q).gq x R a b * phase (s.c.Rk R) k)

/-! ### `standardize` -/

/-- Dictionary of matrices. -/
abbrev Dict (X O : Type) := List ((V3 × V3) × (X → O → O → ℂ))

/-- `const[R] += M` if `R` is a key, `const[R] = M` otherwise: `elphmod/elph.py` 594-597, 604-607. -/
noncomputable def addTo {X O : Type} (d : Dict X O) (R : V3 × V3) (M : X → O → O → ℂ) : Dict X O :=
  if R ∈ d.map Prod.fst then d.map fun e => if e.1 = R then (e.1, fun x a b => e.2 x a b + M x a b) else e
  else d ++ [(R, M)]

open Classical in
/-- One round of the loops, `elphmod/elph.py` 589-609. -/
noncomputable def stdStep {X O : Type} (symmetrize : Bool) (d : Dict X O) (e : (V3 × V3) × (X → O → O → ℂ)) :
    Dict X O :=
  if ∃ x a b, e.2 x a b ≠ 0 then
    let d := addTo d e.1 e.2
    if symmetrize then addTo d (vsub e.1.1 e.1.2, vneg e.1.2) fun x a b => star (e.2 x b a) else d
  else d

/-- Pairs of lattice vectors with matrices in the order of the loops, `elphmod/elph.py` 587-588. -/
def pairs {X O : Type} (c : Coupling X O) : Dict X O :=
  (List.finRange c.ng).flatMap fun i => (List.finRange c.nk).map fun j =>
    ((c.Rg i, c.Rk j), fun x a b => c.data i x j a b)

/-- The dictionary `const`, `elphmod/elph.py` 579-609. -/
noncomputable def stdDict {X O : Type} (symmetrize : Bool) (c : Coupling X O) : Dict X O :=
  (pairs c).foldl (stdStep symmetrize) [(((0, 0, 0), (0, 0, 0)), fun _ _ _ => 0)]

/-- `const[R]`, zero if `R` is no key. -/
def lookup {X O : Type} (d : Dict X O) (R : V3 × V3) : X → O → O → ℂ :=
  match d.find? fun e => e.1 = R with
  | some e => e.2
  | none => fun _ _ _ => 0

/-- `sorted(set(l))`. -/
def sortedSet (l : List V3) : List V3 := l.dedup.mergeSort lexLe

/-- Arrays after `elphmod/elph.py` 611-654, `Rg` and `Rk` being sorted lists without repetitions. -/
noncomputable def toArrays {X O : Type} (symmetrize : Bool) (d : Dict X O) (Rg Rk : List V3) : Coupling X O where
  ng := Rg.length
  nk := Rk.length
  Rg := fun i => Rg[i]
  Rk := fun i => Rk[i]
  data := fun i x j a b => if symmetrize then lookup d (Rg[i], Rk[j]) x a b / 2 else lookup d (Rg[i], Rk[j]) x a b

/-- `elphmod/elph.py` 553-667 (`standardize`) for `eps = 0`. If the number of lattice vectors `Rk` increases, a new array
with `ng` rows is allocated (line 627), which fails if it should have `nk != ng` rows. -/
noncomputable def standardize {X O : Type} (symmetrize : Bool) (c : Coupling X O) : Option (Coupling X O) :=
  let d := stdDict symmetrize c
  let Rg := sortedSet (d.map fun e => e.1.1)
  let Rk := sortedSet (d.map fun e => e.1.2)
  if Rk.length ≤ c.nk ∨ Rk.length = Rg.length then some (toArrays symmetrize d Rg Rk) else none

/-- State after `standardize`: the cache is reset. Values of a new array are arbitrary. -/
noncomputable def State.standardize {X O : Type} (symmetrize : Bool) (s : State X O)
    (junk : (n : Nat) → X → Fin n → O → O → ℂ) : Option (State X O) :=
  (ElPh.standardize symmetrize s.c).map fun c =>
    { c := c, lr := s.lr, Rk0 := vectorIndex c.Rk (0, 0, 0), q := none, gq := junk c.nk }

/-! ### Acoustic sum rule -/

open Classical in
/-- `elphmod/elph.py` 674-711 (`asr`): columns are given by direction, `Rk`, and orbitals. -/
noncomputable def asr {nat : Nat} {O : Type} (c : Coupling (Fin nat × Fin 3) O) : Coupling (Fin nat × Fin 3) O :=
  { c with data := fun R x r a b =>
      let zero := ∑ R, ∑ na, c.data R (na, x.2) r a b
      let norm := ∑ R, ∑ na, ‖c.data R (na, x.2) r a b‖
      let norm := if norm = 0 then 1 else norm
      c.data R x r a b - ((‖c.data R x r a b‖ / norm : ℝ) : ℂ) * zero }

/-- State after `asr`: the cache is not reset. -/
noncomputable def State.asr {nat : Nat} {O : Type} (s : State (Fin nat × Fin 3) O) : State (Fin nat × Fin 3) O :=
  { s with c := ElPh.asr s.c }

/-! ### Supercells -/

/-- One assignment of a block, `elphmod/elph.py` 474-500: lattice vectors of the supercell, indices of the cells of the
displacement, the first and the second orbital, matrix. -/
structure Block (X O : Type) where
  R : V3 × V3
  rg : Nat
  i : Nat
  rk : Nat
  M : X → O → O → ℂ

/-- `elphmod/elph.py` 460-481: position of the block, `none` if `to_supercell` fails. -/
def blockOf {X O : Type} (s : Supercell) (c : Coupling X O) (i : Nat) (g : Fin c.ng) (k : Fin c.nk) :
    Option (Block X O) :=
  match toSupercell (vadd (c.Rg g) (s.cells.getD i (0, 0, 0))) s,
    toSupercell (vadd (c.Rk k) (s.cells.getD i (0, 0, 0))) s with
  | some (Rg, rg), some (Rk, rk) => some ⟨(Rg, Rk), rg, i, rk, fun x a b => c.data g x k a b⟩
  | _, _ => none

/-- Blocks in the order of the loops, `elphmod/elph.py` 456-500 (one process). -/
def blocks {X O : Type} (s : Supercell) (c : Coupling X O) : Option (List (Block X O)) :=
  ((List.range s.cells.length).flatMap fun i => (List.finRange c.ng).flatMap fun g => (List.finRange c.nk).map fun k =>
    blockOf s c i g k).mapM id

/-- `elphmod/elph.py` 491-500: assignment to part of an array of zeros or an existing array. -/
noncomputable def setBlock {X O : Type} (d : Dict (Nat × X) (Nat × O)) (o : Block X O) : Dict (Nat × X) (Nat × O) :=
  if o.R ∈ d.map Prod.fst then
    d.map fun e => if e.1 = o.R then
      (e.1, fun x a b => if x.1 = o.rg ∧ a.1 = o.i ∧ b.1 = o.rk then o.M x.2 a.2 b.2 else e.2 x a b) else e
  else d ++ [(o.R, fun x a b => if x.1 = o.rg ∧ a.1 = o.i ∧ b.1 = o.rk then o.M x.2 a.2 b.2 else 0)]

/-- `elphmod/elph.py` 394-551 (`supercell`, not sparse). -/
noncomputable def supercell {X O : Type} (s : Supercell) (c : Coupling X O) :
    Option (Coupling (Nat × X) (Nat × O)) :=
  (blocks s c).map fun l =>
    let d := l.foldl setBlock []
    toArrays false d (sortedSet (d.map fun e => e.1.1)) (sortedSet (d.map fun e => e.1.2))

/-- `elphmod/elph.py` 482-487 (`supercell`, sparse, without long-range terms): coupling for `q = k = 0`. The assignment
is by `+=`. -/
noncomputable def sparseSupercell {X O : Type} (s : Supercell) (c : Coupling X O) :
    Option (Nat × X → Nat × O → Nat × O → ℝ) :=
  (blocks s c).map fun l => l.foldl (fun d o x a b =>
    d x a b + if x.1 = o.rg ∧ a.1 = o.i ∧ b.1 = o.rk then (o.M x.2 a.2 b.2).re else 0) fun _ _ _ => 0

end Verif.ElPh
