import Verif.Text.PwiCards

/-!
# Input files of Wannier90
-/

namespace Verif.Win

open Verif.Text Verif.Namelist Verif.Pwi

/-! ### Data -/

/-- Input data; only parameters that have been given are present. -/
structure Data where
  params : Str → Option Item := fun _ => none
  proj : Option (List (Str × Str)) := none
  path : Option (List Str) := none
  cell : Option (Fin 3 → Fin 3 → ℚ) := none
  atoms : Option (Str × List (Str × (Fin 3 → ℚ))) := none
  grid : Option (Int × Int × Int) := none
  kpoints : Option (List (Fin 4 → ℚ)) := none

/-! ### Writing -/

/-- Single parameters, `data.write('%s = %r\n' % (key, struct[key]))`. -/
def params (rf : ℚ → Str) (struct : Str → Option Item) (keys : List Str) : Str :=
  keys.flatMap fun k => match struct k with
    | some i => entry k (reprItem rf i)
    | none => []

/-- Projection, `elphmod/bravais.py` 2177. -/
def projLine (p : Str × Str) : Str := p.1 ++ [':', ' '] ++ p.2 ++ ['\n']

/-- Block of lines, unless there are none. -/
def block (name : Str) (lines : List Str) : Str :=
  if lines = [] then [] else tx "begin " ++ name ++ ['\n'] ++ lines.flatten ++ tx "end " ++ name ++ ['\n']

/-- `elphmod/bravais.py` 2145-2222 (`write_win`), where `sep` is the text after `mp_grid`, which is `': '` in the code. (That
the projections, path, cell, atoms and k points are mandatory has been put into the arguments.) -/
def writeWith (sep : Str) (rf : ℚ → Str) (struct : Str → Option Item) (proj : List (Str × Str)) (path : List Str)
    (cell : Fin 3 → Fin 3 → ℚ) (coords : Str) (atoms : List (Str × (Fin 3 → ℚ))) (grid : Option (Int × Int × Int))
    (kpoints : List (Fin 4 → ℚ)) : Str :=
  params rf struct [tx "num_bands", tx "num_wann"] ++ '\n' ::
  (params rf struct [tx "dis_win_min", tx "dis_win_max", tx "dis_froz_min", tx "dis_froz_max"] ++ '\n' ::
  (block (tx "projections") (proj.map projLine) ++ '\n' ::
  (params rf struct [tx "write_hr", tx "bands_plot"] ++ '\n' ::
  (params rf struct [tx "dis_num_iter", tx "num_iter", tx "search_shells"] ++ '\n' ::
  (block (tx "kpoint_path") (path.map (· ++ ['\n'])) ++ '\n' ::
  (tx "begin unit_cell_cart\n" ++ line (cellFields (cell 0)) ++ line (cellFields (cell 1)) ++ line (cellFields (cell 2)) ++
    tx "end unit_cell_cart\n" ++ '\n' ::
  (tx "begin atoms_" ++ coords ++ ['\n'] ++ (atoms.flatMap fun x => line (posFields x.1 x.2)) ++ tx "end atoms_" ++ coords ++
    ['\n'] ++ '\n' ::
  ((match grid with
    | some (a, b, c) => tx "mp_grid" ++ sep ++ fmt [fInt 0 0 a, fInt 1 0 b, fInt 1 0 c] ++ ['\n']
    | none => []) ++ '\n' ::
  (tx "begin kpoints\n" ++ (kpoints.flatMap fun k => line (qLine k)) ++ tx "end kpoints\n")))))))))

/-- `elphmod/bravais.py` 2145-2222 (`write_win`). -/
def writeWin := writeWith (tx ": ")

/-! ### Reading -/

/-- `s.split('=')`, `acc` is the current part. -/
def splitEq : Str → Str → List Str
  | acc, [] => [acc]
  | acc, c :: s => if c = '=' then acc :: splitEq [] s else splitEq (acc ++ [c]) s

/-- `elphmod/bravais.py` 2030-2032. -/
def winWords (l : Str) : List Str := (words l).flatMap fun c => (splitEq [] c).filter (· ≠ [])

/-- `s.strip()` -/
def strip (s : Str) : Str := ((s.dropWhile isSpace).reverse.dropWhile isSpace).reverse

/-- Projections, `elphmod/bravais.py` 2072-2080: dictionary and remaining lines. -/
def readProj : List Str → List (Str × Str) → Option (List (Str × Str) × List Str)
  | [], _ => none
  | l :: ls, d =>
    if has (tx "end") l then some (d, ls)
    else if ':' ∈ l then
      readProj ls (put d (strip (l.takeWhile (· ≠ ':'))) (strip ((l.dropWhile (· ≠ ':')).drop 1)))
    else none

/-- Path, `elphmod/bravais.py` 2085-2091: lines and remaining lines. -/
def readPath : List Str → Option (List Str × List Str)
  | [] => none
  | l :: ls =>
    if (tx "end").isPrefixOf (strip l) then some ([], ls)
    else (readPath ls).map fun r => (strip l :: r.1, r.2)

/-- Lines of words up to the end, `elphmod/bravais.py` 2104-2109. -/
def readTmp : List Str → Option (List (List Str) × List Str)
  | [] => none
  | l :: ls => match words l with
    | [] => none
    | w :: ws => if w = tx "end" then some ([], ls) else (readTmp ls).map fun r => ((w :: ws) :: r.1, r.2)

/-- One atom, `elphmod/bravais.py` 2115-2118. -/
def readAtom (w : List Str) : Option (Str × (Fin 3 → ℚ)) := do
  let a ← w[0]?
  let x ← fl w 1
  let y ← fl w 2
  let z ← fl w 3
  pure (a, ![x, y, z])

/-- One k point, `elphmod/bravais.py` 2125-2128: missing numbers are zero. -/
def readPoint (w : List Str) : Option (Fin 4 → ℚ) :=
  if 4 < w.length then none else (w.mapM readFloat).map fun l i => l[i.val]?.getD 0

/-- k points, `elphmod/bravais.py` 2124-2128: points and remaining lines. -/
def readPoints : Nat → List Str → Option (List (Fin 4 → ℚ) × List Str)
  | 0, ls => some ([], ls)
  | _ + 1, [] => none
  | n + 1, l :: ls => do
    let k ← readPoint (words l)
    let r ← readPoints n ls
    pure (k :: r.1, r.2)

/-- Keys with integers, `elphmod/bravais.py` 2039-2042 and 2060-2065. -/
def intKeys : List Str := [tx "num_bands", tx "num_wann", tx "dis_num_iter", tx "num_iter", tx "search_shells"]

/-- Keys with floating-point numbers, `elphmod/bravais.py` 2044-2051. -/
def floatKeys : List Str := [tx "dis_win_min", tx "dis_win_max", tx "dis_froz_min", tx "dis_froz_max"]

/-- Keys with truth values, `elphmod/bravais.py` 2053-2058. -/
def boolKeys : List Str := [tx "write_hr", tx "bands_plot", tx "wannier_plot"]

/-- One entry, `elphmod/bravais.py` 2034-2128: new data and remaining lines. -/
def readEntry (w ls : List Str) (s : Data) : Option (Data × List Str) :=
  match w with
  | [] => some (s, ls)
  | k :: _ =>
    let key := k.map Char.toLower
    if key ∈ intKeys then do
      let z ← (w[1]?).bind readInt
      pure ({ s with params := Function.update s.params key (some (.int z)) }, ls)
    else if key ∈ floatKeys then do
      let x ← fl w 1
      pure ({ s with params := Function.update s.params key (some (.float x)) }, ls)
    else if key ∈ boolKeys then do
      let b ← w[1]?
      pure ({ s with params := Function.update s.params key (some (.bool ((b.map Char.toLower).contains 't'))) }, ls)
    else if key = tx "mp_grid" then do
      let a ← (w[1]?).bind readInt
      let b ← (w[2]?).bind readInt
      let c ← (w[3]?).bind readInt
      pure ({ s with grid := some (a, b, c) }, ls)
    else if key = tx "begin" then do
      let name ← w[1]?
      if name = tx "projections" then do
        let r ← readProj ls []
        pure ({ s with proj := some r.1 }, r.2)
      else if name = tx "kpoint_path" then do
        let r ← readPath ls
        pure ({ s with path := some r.1 }, r.2)
      else if name = tx "unit_cell_cart" then
        match ls with
        | a :: b :: c :: ls => do
          let x ← row3 a
          let y ← row3 b
          let z ← row3 c
          pure ({ s with cell := some ![x, y, z] }, ls)
        | _ => none
      else if (tx "atoms_").isPrefixOf name then do
        let r ← readTmp ls
        let a ← r.1.mapM readAtom
        pure ({ s with atoms := some (name.drop 6, a) }, r.2)
      else if name = tx "kpoints" then do
        let g ← s.grid
        if g.1 * g.2.1 * g.2.2 < 0 then none
        let r ← readPoints (g.1 * g.2.1 * g.2.2).toNat ls
        pure ({ s with kpoints := some r.1 }, r.2)
      else pure (s, ls)
    else some (s, ls)

/-- Loop over lines, `elphmod/bravais.py` 2029-2128, with at most the given number of steps. -/
def loop : Nat → List Str → Data → Option Data
  | 0, _, s => some s
  | _ + 1, [], s => some s
  | f + 1, l :: ls, s => do
    let r ← readEntry (winWords l) ls s
    loop f r.2 r.1

/-- `elphmod/bravais.py` 2012-2143 (`read_win`) on one process; `none` stands for an exception. -/
def readWin (text : Str) : Option Data := loop (lines text).length (lines text) {}

end Verif.Win
