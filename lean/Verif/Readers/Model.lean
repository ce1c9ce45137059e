import Verif.Xml.Model

/-!
# Small readers: `read_bands_plot`, `read_symmetry_points`, `read_wannier90_eig_file`, `read_decayH` and `read_energy_contributions_scf_out` in
`elphmod/el.py`, `read_patterns` in `elphmod/elph.py`

A file is the list of its lines. Numbers in files are rational. Exceptions are `none`. Broadcasts are not modelled.
-/

namespace Verif.Readers

open Verif.Text Verif.Xml Verif.Pwo

/-! ### `read_bands_plot` -/

/-- `np.loadtxt(filbandgnu)` without comments: rows of two columns; blank lines are skipped. -/
def loadtxt (ls : List Str) : Option (List (ℚ × ℚ)) :=
  (ls.filter fun l => !(words l).isEmpty).mapM fun l => match (words l).mapM readFloat with
    | some [x, y] => some (x, y)
    | _ => none

/-- `elphmod/el.py` 925-932: the loaded array is one-dimensional if there is a single row and empty if there is none, where unpacking or slicing
fails. Rows of `e` are points, columns are bands. -/
def readBandsPlot (ls : List Str) (bands : Nat) : Option (List ℚ × List (List ℚ)) := do
  let rows ← loadtxt ls
  if rows.length < 2 then none
  if bands = 0 then none
  let points := rows.length / bands
  if bands * points ≠ rows.length then none
  some ((rows.map (·.1)).take points,
    (List.range points).map fun i => (List.range bands).map fun n => (rows.map (·.2)).getD (n * points + i) 0)

/-! ### `read_symmetry_points` -/

/-- `elphmod/el.py` 948-952: the loop over lines. -/
def readSymmetryPoints : List Str → Option (List ℚ)
  | [] => some []
  | l :: ls =>
    if has "x coordinate".toList l then
      match (words l).getLast? with
      | none => none
      | some w => do
        let x ← readFloat w
        let xs ← readSymmetryPoints ls
        some (x :: xs)
    else readSymmetryPoints ls

/-! ### `read_wannier90_eig_file` -/

/-- `elphmod/el.py` 1407: the numbers in a line. -/
def eigLine (l : Str) : Option (Int × Int × ℚ) := match words l with
  | [b, k, e] => do some (← readInt b, ← readInt k, ← readFloat e)
  | _ => none

/-- `elphmod/el.py` 1402-1409: elements that have not been set are undefined (`none`). Negative indices count from the end. -/
def readEig (bands nk : Nat) : List Str → (Nat → Nat → Option ℚ) → Option (Nat → Nat → Option ℚ)
  | [], t => some t
  | l :: ls, t => do
    let (b, k, e) ← eigLine l
    let i ← pyIndex bands (b - 1)
    let j ← pyIndex nk (k - 1)
    readEig bands nk ls fun i' j' => if i' = i ∧ j' = j then some e else t i' j'

/-! ### `read_decayH` -/

/-- `elphmod/el.py` 1632-1645. -/
def readDecayH : List Str → Option (List (ℚ × ℚ))
  | [] => some []
  | l :: ls => match words l with
    | [r, h] => do
      let r ← readFloat r
      let h ← readFloat h
      let rest ← readDecayH ls
      some ((r, h) :: rest)
    | _ => readDecayH ls

/-! ### `read_energy_contributions_scf_out` -/

/-- `elphmod/el.py` 1711-1713. -/
def wordsEq (l : Str) : List Str := (words l).flatMap fun c => (splitOn '=' [] c).filter fun w => !w.isEmpty

/-- `energies[key] = words[i]` -/
def put (key : String) (ws : List Str) (i : Nat) (d : Str → Option Str) : Option (Str → Option Str) := do
  let w ← ws[i]?
  some fun k => if k = key.toList then some w else d k

/-- Characters as lower-case. -/
def lower (s : Str) : Str := s.map Char.toLower

/-- `elphmod/el.py` 1710-1741: the body of the loop. -/
def energyLine (l : Str) (d : Str → Option Str) : Option (Str → Option Str) :=
  match wordsEq l with
  | [] => some d
  | w :: ws =>
    let key := lower w
    if has key "sum bands".toList then
      if w = "sum".toList then put "sum bands" (w :: ws) 2 d else some d
    else if has key "one-electron contribution".toList then
      if w = "one-electron".toList then put "one-electron" (w :: ws) 2 d else some d
    else if has key "hartree contribution".toList then
      if w = "hartree".toList then put "hartree" (w :: ws) 2 d else some d
    else if has key "xc contribution".toList then
      if w = "xc".toList then put "xc" (w :: ws) 2 d else some d
    else if has key "ewald contribution".toList then
      if w = "ewald".toList then put "ewald" (w :: ws) 2 d else some d
    else if has key "smearing contrib.".toList then
      if w = "smearing".toList then put "smearing" (w :: ws) 3 d else some d
    else if has key "!".toList then
      if w = "!".toList then put "total" (w :: ws) 3 d else some d
    else some d

/-- `elphmod/el.py` 1706-1748. -/
def readEnergies (ls : List Str) : Option (Str → Option Str) := ls.foldlM (fun d l => energyLine l d) fun _ => none

/-! ### `read_patterns` -/

/-- `elphmod/elph.py` 1419-1421: loop over `jrep`. -/
def patternLines : Nat → List Str → Option (List ℚ × List Str)
  | 0, ls => some ([], ls)
  | _ + 1, [] => none
  | n + 1, l :: ls => match (splitOn ',' [] l).head? >>= floatOf with
    | some x => (patternLines n ls).map fun r => (x :: r.1, r.2)
    | none => none

/-- `elphmod/elph.py` 1416-1421: loop over `irep`. -/
def patternLoop (nrep : Nat) : Nat → List Str → Option (List (List ℚ))
  | 0, _ => some []
  | n + 1, ls => do
    let (x, ls) ← patternLines nrep (goto "<DISPLACEMENT_PATTERN ".toList ls).2
    (patternLoop nrep n ls).map (x :: ·)

/-- `elphmod/elph.py` 1406-1421: one file. A wrong number of representations is only reported. -/
def patternFile (nrep : Nat) (ls : List Str) : Option (List (List ℚ)) :=
  match (goto "<NUMBER_IRR_REP ".toList ls).2 with
  | [] => none
  | l :: ls => do
    let _ ← intOf l
    patternLoop nrep nrep ls

/-- `elphmod/elph.py` 1388-1425 (`read_patterns`) on `size` processes for the files `files iq`. -/
def readPatterns (size : Nat) (files : Nat → List Str) (q : List Nat) (nrep : Nat) : Option (List (List (List ℚ))) := do
  (← Verif.MPI.parMap size (fun iq => patternFile nrep (files (iq + 1))) q).mapM id

end Verif.Readers
