import Mathlib.Analysis.SpecialFunctions.Pow.Real
import Mathlib.Data.Complex.Basic
import Verif.Text.Model
import Verif.Mesh.Model

/-!
# Output of EPW: `read_EPW_output`, `read_prtgkk` and `read_L` in `elphmod/elph.py`

A file is the list of its lines. Numbers in files are rational. Exceptions are `none`. The broadcast from the first process, the warning about
missing values and the option `squeeze` are not modelled.
-/

namespace Verif.Epw

open Verif.Text Verif.Mesh

/-- `for line in data` whose body may call `next(data)`: it returns the rest of the file (the empty list upon `break`) and the new state. The
number is an upper bound of the number of iterations. -/
def iterate {σ : Type} (body : Str → List Str → σ → Option (List Str × σ)) : Nat → List Str → σ → Option σ
  | _, [], s => some s
  | 0, _ :: _, _ => none
  | n + 1, l :: ls, s => match body l ls s with
    | none => none
    | some (ls, s) => iterate body n ls s

/-- The loop over all lines. -/
def forLines {σ : Type} (body : Str → List Str → σ → Option (List Str × σ)) (ls : List Str) (s : σ) : Option σ :=
  iterate body ls.length ls s

/-- The loops over `jbnd`, `ibnd` and `nu`, `elphmod/elph.py` 1276-1278 and 1350-1352. -/
def order (bands nmodes : Nat) : List (Nat × Nat × Nat) :=
  (List.range bands).flatMap fun j => (List.range bands).flatMap fun i => (List.range nmodes).map fun nu => (j, i, nu)

/-- The body of these loops: `columns = next(data).split()` and the assignment `set`. -/
def values {τ : Type} (set : Nat × Nat × Nat → List Str → τ → Option τ) : List (Nat × Nat × Nat) → List Str → τ → Option (List Str × τ)
  | [], ls, t => some (ls, t)
  | _ :: _, [], _ => none
  | i :: is, l :: ls, t => do values set is ls (← set i (words l) t)

/-- `float(columns[-n])` -/
def column (columns : List Str) (n : Nat) : Option ℚ := do readFloat (← columns.reverse[n - 1]?)

/-! ### `read_EPW_output` -/

/-- What to read: the modulus of the coupling, the same times the square root of twice the energy, or the complex coupling. -/
inductive Kind
  | modulus
  | defpot
  | epf

/-- `elphmod/elph.py` 1281-1290. -/
noncomputable def Kind.value (kind : Kind) (columns : List Str) : Option ℂ :=
  match kind with
  | .epf => do
    let x ← column columns 2
    let y ← column columns 1
    some ⟨x, y⟩
  | .defpot => do
    let g ← column columns 1
    let w ← column columns 2
    some ((g : ℝ) * Real.sqrt (2 * w) : ℝ)
  | .modulus => do
    let g ← column columns 1
    some (g : ℝ)

/-- `elphmod/elph.py` 1295-1298. -/
noncomputable def Kind.unit : Kind → ℝ
  | .epf => (1e-3 : ℝ) ^ (1.5 : ℝ)
  | .defpot => (1e-3 : ℝ) ^ (1.5 : ℝ)
  | .modulus => 1e-3

/-- Elements of `elph`: q point, mode, k point, bands; `none` is NaN. -/
abbrev Table := Nat → Nat → P → Nat → Nat → Option ℂ

/-- `elph[iq, nu, k1, k2, ibnd, jbnd] = value` -/
def Table.set (t : Table) (iq nu : Nat) (k : P) (i j : Nat) (value : ℂ) : Table := fun iq' nu' k' i' j' =>
  if iq' = iq ∧ nu' = nu ∧ k' = k ∧ i' = i ∧ j' = j then some value else t iq' nu' k' i' j'

/-- `q_set`, `iq` and `elph`. -/
structure State where
  left : List P
  iq : Option Nat
  table : Table

/-- `elphmod/elph.py` 1240-1250 and 1263-1273: index of a mesh point, `none` if the coordinate does not belong to the mesh. -/
def index (n : Nat) (eps : ℚ) (x : ℚ) : Option Int :=
  let f := x * n
  let i := roundEven f
  if |f - i| > eps then none else some (i % n)

/-- Both indices. -/
def index2 (n : Nat) (eps x y : ℚ) : Option P :=
  match index n eps x, index n eps y with
  | some a, some b => some (a, b)
  | _, _ => none

/-- `'     iq = '` -/
def iqText : Str := "     iq = ".toList

/-- `'     ik = '` -/
def ikText : Str := "     ik = ".toList

/-- `elphmod/elph.py` 1229-1290: body of the loop over lines. -/
noncomputable def outputBody (q : List P) (nq nmodes nk bands : Nat) (eps : ℚ) (kind : Kind) (line : Str) (data : List Str) (s : State) :
    Option (List Str × State) :=
  if iqText.isPrefixOf line then
    if s.left = [] then some ([], s)
    else do
      let x ← column (words line) 3
      let y ← column (words line) 2
      match index2 nq eps x y with
      | none => some (data, { s with iq := none })
      | some p =>
        if p ∈ s.left then some (data, { s with iq := some (q.idxOf p), left := s.left.filter (· ≠ p) })
        else some (data, { s with iq := none })
  else
    match s.iq with
    | none => some (data, s)
    | some iq =>
      if ikText.isPrefixOf line then do
        let x ← column (words line) 3
        let y ← column (words line) 2
        match index2 nk eps x y with
        | none => some (data, s)
        | some k =>
          match data with
          | _ :: _ :: data => do
            let r ← values (fun jin columns (t : Table) => do some (t.set iq jin.2.2 k jin.2.1 jin.1 (← kind.value columns)))
              (order bands nmodes) data s.table
            some (r.1, { s with table := r.2 })
          | _ => none
      else some (data, s)

/-- `elphmod/elph.py` 1184-1307 (`read_EPW_output`). -/
noncomputable def readOutput (lines : List Str) (q : List P) (nq nmodes nk bands : Nat) (eps : ℚ) (kind : Kind) : Option Table := do
  let s ← forLines (outputBody q nq nmodes nk bands eps kind) lines ⟨q, none, fun _ _ _ _ _ => none⟩
  some fun iq nu k i j => (s.table iq nu k i j).map (· * (kind.unit : ℂ))

/-! ### `read_prtgkk` -/

/-- `iq + 1`, `ik + 1` (if defined), `w` and `g`; elements which have not been set are undefined. -/
structure Counters where
  iq : Nat
  ik : Option Nat
  w : Nat → Nat → Option ℚ
  g : Nat → Nat → Nat → Nat → Nat → Option ℚ

/-- `elphmod/elph.py` 1355-1356 for the q point number `iq + 1` and the k point number `ik + 1`. -/
def assign (nq nk iq ik : Nat) (jin : Nat × Nat × Nat) (columns : List Str) (s : Counters) : Option Counters := do
  let x ← column columns 2
  let y ← column columns 1
  if iq < nq ∧ ik < nk then
    let w := fun a b => if a = iq ∧ b = jin.2.2 then some x else s.w a b
    let g := fun a b c d e => if a = iq ∧ b = jin.2.2 ∧ c = ik ∧ d = jin.2.1 ∧ e = jin.1 then some y else s.g a b c d e
    some { s with w := w, g := g }
  else none

/-- `elphmod/elph.py` 1339-1356: body of the loop over lines. -/
def prtgkkBody (nq nmodes nk nbnd : Nat) (line : Str) (lines : List Str) (s : Counters) : Option (List Str × Counters) :=
  let s := if iqText.isPrefixOf line then { s with ik := some 0, iq := s.iq + 1 } else s
  if ikText.isPrefixOf line then
    match s.ik, lines with
    | some ik, _ :: _ :: lines => values (assign nq nk (s.iq - 1) ik) (order nbnd nmodes) lines { s with ik := some (ik + 1) }
    | _, _ => none
  else some (lines, s)

/-- `elphmod/elph.py` 1309-1361 (`read_prtgkk`). -/
def readPrtgkk (lines : List Str) (nq nmodes nk nbnd : Nat) : Option ((Nat → Nat → Option ℚ) × (Nat → Nat → Nat → Nat → Nat → Option ℚ)) := do
  let s ← forLines (prtgkkBody nq nmodes nk nbnd) lines ⟨0, none, fun _ _ => none, fun _ _ _ _ _ => none⟩
  some (s.w, s.g)

/-! ### `read_L` -/

/-- `elphmod/elph.py` 1381-1384: one line; the inner `none` is `None`. -/
def stepL (L : Option ℚ) (line : Str) : Option (Option ℚ) :=
  match words line with
  | [] => some L
  | c :: cs => if c = "L".toList then (cs[0]?.bind readFloat).map some else some L

/-- `elphmod/elph.py` 1363-1386 (`read_L`); the inner `none` is `None`. -/
def readL (lines : List Str) : Option (Option ℚ) := lines.foldlM stepL none

end Verif.Epw
