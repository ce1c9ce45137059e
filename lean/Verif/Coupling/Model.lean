import Verif.Text.Model
import Verif.MPI.Model
import Verif.Mesh.Model

/-!
# Coupling from text files: `coupling` in `elphmod/elph.py` 1094-1182

Lines of a file are given without restriction; numbers are rational, values pairs of real and imaginary part. Exceptions are `none`. Messages and the
option `complete_k` (see C63 for `complete_k`) are not modelled; symmetries of the completion are compared exactly (see C21).
-/

namespace Verif.Coupling

open Verif.Text Verif.Mesh

/-- Elements of `my_elph[n]`: mode, k point, bands; `none` is NaN. -/
abbrev Table := Nat → P → Nat → Nat → Option (ℚ × ℚ)

/-- `my_elph[n, nu, k1, k2, ibnd, jbnd] = value` -/
def Table.set (t : Table) (nu : Nat) (k : P) (i j : Nat) (value : ℚ × ℚ) : Table := fun nu' k' i' j' =>
  if nu' = nu ∧ k' = k ∧ i' = i ∧ j' = j then some value else t nu' k' i' j'

/-- `columns[band_slice]`, `elphmod/elph.py` 1116 and 1135. -/
def bandColumns (phase : Bool) (columns : List Str) : List Str :=
  if phase then (columns.take (columns.length - 2)).drop (columns.length - 5)
  else (columns.take (columns.length - 1)).drop (columns.length - 4)

/-- `elphmod/elph.py` 1145-1149. -/
def valueOf (phase : Bool) (columns : List Str) : Option (ℚ × ℚ) :=
  if phase then do
    let x ← readFloat (← columns.reverse[1]?)
    let y ← readFloat (← columns.reverse[0]?)
    some (x, y)
  else do
    let x ← readFloat (← columns.reverse[0]?)
    some (x, 0)

/-- `elphmod/elph.py` 1128-1149: one line. -/
def step (phase : Bool) (nmodes nk bands offset : Nat) (t : Table) (line : Str) : Option Table :=
  match words line with
  | [] => none
  | c :: cs =>
    if c.head? = some '#' then some t
    else
      match ((c :: cs).take 2).mapM readInt, (bandColumns phase (c :: cs)).mapM readInt with
      | some [k1, k2], some [jbnd, ibnd, nu] =>
        let ibnd := ibnd - 1 - offset
        let jbnd := jbnd - 1 - offset
        if ibnd ≥ bands ∨ jbnd ≥ bands then some t
        else do
          let value ← valueOf phase (c :: cs)
          let nu ← pyIndex nmodes (nu - 1)
          let k1 ← pyIndex nk (k1 - 1)
          let k2 ← pyIndex nk (k2 - 1)
          let i ← pyIndex bands ibnd
          let j ← pyIndex bands jbnd
          some (t.set nu ((k1 : Int), (k2 : Int)) i j value)
      | _, _ => none

/-- `elphmod/elph.py` 1118-1149: one file. -/
def readFile (phase : Bool) (nmodes nk bands offset : Nat) (lines : List Str) : Option Table :=
  lines.foldlM (step phase nmodes nk bands offset) fun _ _ _ _ => none

/-- `elphmod/elph.py` 1151-1160: completion (mesh axes with an angle of 60 degrees). -/
def completion (nk : Nat) (t : Table) : Table := fun nu k i j => complete nk .a60 (fun k => t nu k i j) k

/-- `elphmod/elph.py` 1094-1182 (`coupling`) on `size` processes for the files `files iq`, q point by q point. -/
def coupling (size : Nat) (files : Nat → List Str) (Q : List Nat) (nmodes nk bands offset : Nat) (complete phase : Bool) : Option (List Table) := do
  (← Verif.MPI.parMap size (fun iq => (readFile phase nmodes nk bands offset (files iq)).map
    fun t => if complete then completion nk t else t) Q).mapM id

end Verif.Coupling
