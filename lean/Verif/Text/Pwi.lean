import Verif.Text.Matdyn

/-!
# Input files of `pw.x`
-/

namespace Verif.Pwi

open Verif.Text Verif.Namelist

/-! ### Data -/

/-- Positions of atoms: three coordinates or (for given space groups) a text. -/
inductive Pos where
  | cart (l : List (Fin 3 → ℚ))
  | sg (l : List Str)

/-- k points. -/
inductive KPoints where
  | automatic (l : List Int)
  | gamma
  | list (nks : Int) (l : List (Fin 4 → ℚ))

/-- Everything but the namelists: `at_species`, `mass` and `pp`, `coords`, `at` and `r`, `ktyp` and `k_points`, `cell_units`
and `r_cell`. -/
structure Cards where
  species : Option (List (Str × ℚ × Str)) := none
  coords : Option (Str × List Str × Pos) := none
  k : Option (Str × KPoints) := none
  cell : Option (Str × (Fin 3 → Fin 3 → ℚ)) := none

/-- `sub in s`. -/
def has (sub : Str) : Str → Bool
  | [] => sub.isEmpty
  | c :: s => sub.isPrefixOf (c :: s) || has sub s

/-! ### Writing -/

/-- Keys, `elphmod/bravais.py` 1914-1915. -/
def controlKeys : List Str :=
  [tx "title", tx "prefix", tx "outdir", tx "pseudo_dir", tx "calculation", tx "tprnfor", tx "tstress", tx "nstep",
    tx "forc_conv_thr"]

/-- Keys, `elphmod/bravais.py` 1928-1933. -/
def systemKeys : List Str :=
  [tx "ibrav", tx "ntyp", tx "nat", tx "a", tx "b", tx "c", tx "cosbc", tx "cosac", tx "cosab", tx "ecutwfc", tx "ecutrho",
    tx "nbnd", tx "occupations", tx "smearing", tx "degauss", tx "nosym", tx "noinv", tx "tot_charge", tx "assume_isolated",
    tx "nspin", tx "noncolin", tx "lspinorb", tx "tot_magnetization", tx "starting_magnetization", tx "space_group",
    tx "uniqueb", tx "origin_choice", tx "rhombohedral"]

/-- Keys, `elphmod/bravais.py` 1941-1943. -/
def electronsKeys : List Str :=
  [tx "electron_maxstep", tx "conv_thr", tx "diagonalization", tx "diago_full_acc", tx "mixing_beta", tx "startingpot",
    tx "startingwfc", tx "scf_must_converge"]

/-- Keys, `elphmod/bravais.py` 1952. -/
def ionsKeys : List Str := [tx "ion_dynamics", tx "upscale"]

/-- Keys, `elphmod/bravais.py` 1961-1962. -/
def cellKeys : List Str := [tx "cell_dynamics", tx "cell_dofree", tx "press", tx "press_conv_thr"]

/-- `struct.get('calculation') in {...}` -/
def calculation (struct : Str → Option Val) (l : List Str) : Bool :=
  match struct (tx "calculation") with
  | some (.one (.str s)) => l.contains s
  | _ => false

/-- Calculations with moving atoms, `elphmod/bravais.py` 1949. -/
def moving : List Str := [tx "relax", tx "md", tx "vc-relax", tx "vc-md"]

/-- Calculations with variable cells, `elphmod/bravais.py` 1958. -/
def varCell : List Str := [tx "vc-relax", tx "vc-md"]

/-- Namelists, `elphmod/bravais.py` 1911-1967. -/
def writeLists (rf : ℚ → Str) (struct : Str → Option Val) : Str :=
  tx "&CONTROL\n" ++ entries rf struct controlKeys ++ tx "/\n" ++
  (tx "&SYSTEM\n" ++ numberedOpt rf struct (tx "celldm") ++ entries rf struct systemKeys ++ tx "/\n") ++
  (tx "&ELECTRONS\n" ++ entries rf struct electronsKeys ++ tx "/\n") ++
  (if calculation struct moving then
    (tx "&IONS\n" ++ entries rf struct ionsKeys ++ tx "/\n") ++
    (if calculation struct varCell then tx "&CELL\n" ++ entries rf struct cellKeys ++ tx "/\n" else [])
  else [])

/-- Word with separating space. -/
def fWord (sp w : Nat) (s : Str) : Field := ⟨sp, w, s⟩

/-- `elphmod/bravais.py` 1972-1973; `rg` is the format `%.12g`. -/
def speciesFields (rg : ℚ → Str) (s : Str × ℚ × Str) : List Field := [fWord 0 0 s.1, fWord 1 0 (rg s.2.1), fWord 1 0 s.2.2]

/-- `elphmod/bravais.py` 1984. -/
def posFields (X : Str) (r : Fin 3 → ℚ) : List Field :=
  [fWord 0 2 X, fFixed 1 12 9 (r 0), fFixed 1 12 9 (r 1), fFixed 1 12 9 (r 2)]

/-- `elphmod/bravais.py` 1981. -/
def sgFields (X r : Str) : List Field := [fWord 0 2 X, fWord 1 0 r]

/-- `elphmod/bravais.py` 1997-2002; `int` truncates, thus a number equals its integer part if it is an integer. -/
def kFields (k : Fin 4 → ℚ) : List Field :=
  [fFixed 0 12 9 (k 0), fFixed 1 12 9 (k 1), fFixed 1 12 9 (k 2),
    if (k 3).den = 1 then fInt 1 0 (k 3).num else fFixed 1 12 9 (k 3)]

/-- `elphmod/bravais.py` 2010. -/
def cellFields (r : Fin 3 → ℚ) : List Field := [fFixed 0 12 9 (r 0), fFixed 1 12 9 (r 1), fFixed 1 12 9 (r 2)]

/-- Formatted line. -/
def line (l : List Field) : Str := fmt l ++ ['\n']

/-- Positions, `elphmod/bravais.py` 1979-1984. The kind of positions and the units belong together (C122 is about structures
for which they do). -/
def writePos (at_ : List Str) : Pos → Str
  | .cart l => (at_.zip l).flatMap fun x => line (posFields x.1 x.2)
  | .sg l => (at_.zip l).flatMap fun x => line (sgFields x.1 x.2)

/-- k points, `elphmod/bravais.py` 1986-2002. (If `k_points` does not match `ktyp`, there are exceptions in the code.) -/
def writeK (ktyp : Str) (k : KPoints) : Str :=
  '\n' :: line [fWord 0 0 (tx "K_POINTS"), fWord 1 0 ktyp] ++
    if has (tx "automatic") ktyp then
      match k with
      | .automatic [a, b, c, d, e, f] => line [fInt 0 0 a, fInt 1 0 b, fInt 1 0 c, fInt 1 0 d, fInt 1 0 e, fInt 1 0 f]
      | _ => []
    else if has (tx "gamma") ktyp then []
    else match k with
      | .list nks l => line [fInt 0 0 nks] ++ l.flatMap fun k => line (kFields k)
      | _ => []

/-- Cell, `elphmod/bravais.py` 2004-2010. -/
def writeCell (units : Str) (r : Fin 3 → Fin 3 → ℚ) : Str :=
  '\n' :: line [fWord 0 0 (tx "CELL_PARAMETERS"), fWord 1 0 units] ++ (line (cellFields (r 0)) ++ line (cellFields (r 1)) ++
    line (cellFields (r 2)))

/-- Cards, `elphmod/bravais.py` 1969-2010. (There are as many species as stated by `ntyp`; species and positions are always
given.) -/
def writeCards (rg : ℚ → Str) (species : List (Str × ℚ × Str)) (coords : Str) (at_ : List Str) (r : Pos)
    (k : Option (Str × KPoints)) (cell : Option (Str × (Fin 3 → Fin 3 → ℚ))) : Str :=
  line [fWord 0 0 (tx "ATOMIC_SPECIES")] ++ ((species.flatMap fun s => line (speciesFields rg s)) ++
    ('\n' :: line [fWord 0 0 (tx "ATOMIC_POSITIONS"), fWord 1 0 coords] ++ (writePos at_ r ++
      ((match k with
        | some (ktyp, k) => writeK ktyp k
        | none => []) ++
      (match cell with
        | some (units, r) => writeCell units r
        | none => [])))))

/-- `elphmod/bravais.py` 1899-2010 (`write_pwi`). -/
def writePwi (rf rg : ℚ → Str) (struct : Str → Option Val) (species : List (Str × ℚ × Str)) (coords : Str) (at_ : List Str)
    (r : Pos) (k : Option (Str × KPoints)) (cell : Option (Str × (Fin 3 → Fin 3 → ℚ))) : Str :=
  writeLists rf struct ++ writeCards rg species coords at_ r k cell

/-! ### Reading -/

/-- A word that is a floating-point number. -/
def fl (w : List Str) (n : Nat) : Option ℚ := (w[n]?).bind readFloat

/-- `elphmod/bravais.py` 1831-1836: `n` lines with species, and remaining lines. -/
def readSpecies : Nat → List Str → Option (List (Str × ℚ × Str) × List Str)
  | 0, ls => some ([], ls)
  | _ + 1, [] => none
  | n + 1, l :: ls => do
    let a ← (words l)[0]?
    let m ← fl (words l) 1
    let p ← (words l)[2]?
    let r ← readSpecies n ls
    pure ((a, m, p) :: r.1, r.2)

/-- `elphmod/bravais.py` 1855-1864: `n` lines with atoms and coordinates, and remaining lines. -/
def readCart : Nat → List Str → Option (List (Str × (Fin 3 → ℚ)) × List Str)
  | 0, ls => some ([], ls)
  | _ + 1, [] => none
  | n + 1, l :: ls => do
    let a ← (words l)[0]?
    let x ← fl (words l) 1
    let y ← fl (words l) 2
    let z ← fl (words l) 3
    let r ← readCart n ls
    pure ((a, ![x, y, z]) :: r.1, r.2)

/-- `elphmod/bravais.py` 1855-1861: `n` lines with atoms and texts, and remaining lines. -/
def readSg : Nat → List Str → Option (List (Str × Str) × List Str)
  | 0, ls => some ([], ls)
  | _ + 1, [] => none
  | n + 1, l :: ls => do
    let a ← (words l)[0]?
    let x ← (words l)[1]?
    let r ← readSg n ls
    pure ((a, x) :: r.1, r.2)

/-- Assignment to one row of an array, `elphmod/bravais.py` 1876: single numbers are broadcast. -/
def row4 : List ℚ → Option (Fin 4 → ℚ)
  | [a, b, c, d] => some ![a, b, c, d]
  | [a] => some ![a, a, a, a]
  | _ => none

/-- `elphmod/bravais.py` 1875-1877: `n` lines with points, and remaining lines. -/
def readK : Nat → List Str → Option (List (Fin 4 → ℚ) × List Str)
  | 0, ls => some ([], ls)
  | _ + 1, [] => none
  | n + 1, l :: ls => do
    let k ← ((words l).take 4).mapM readFloat
    let k ← row4 k
    let r ← readK n ls
    pure (k :: r.1, r.2)

/-- One row, `elphmod/bravais.py` 1890-1893. -/
def row3 (l : Str) : Option (Fin 3 → ℚ) := do
  let x ← fl (words l) 0
  let y ← fl (words l) 1
  let z ← fl (words l) 2
  pure ![x, y, z]

/-- Integer in the dictionary, `range(struct[key])`; others lead to exceptions. -/
def count (d : Dict) (key : Str) : Option Nat :=
  match d.lookup key with
  | some (.one (.int z)) => some z.toNat
  | _ => none

/-- Braces and spaces are removed, `elphmod/bravais.py` 1842-1843. -/
def units (s : Str) : Str := (s.map Char.toLower).filter fun c => !(c == '{' || c == ' ' || c == '}')

/-- One card, `elphmod/bravais.py` 1817-1893: new data and remaining lines. -/
def readCard (d : Dict) (w ls : List Str) (s : Cards) : Option (Cards × List Str) :=
  match w with
  | [] => some (s, ls)
  | key :: _ =>
    let key := key.map Char.toLower
    if key = tx "atomic_species" then do
      let n ← count d (tx "ntyp")
      let r ← readSpecies n ls
      pure ({ s with species := some r.1 }, r.2)
    else if key = tx "atomic_positions" then do
      let coords := match w[1]? with
        | some u => units u
        | none => tx "alat"
      let n ← count d (tx "nat")
      if has (tx "crystal_sg") coords then do
        let r ← readSg n ls
        pure ({ s with coords := some (coords, r.1.map Prod.fst, .sg (r.1.map Prod.snd)) }, r.2)
      else do
        let r ← readCart n ls
        pure ({ s with coords := some (coords, r.1.map Prod.fst, .cart (r.1.map Prod.snd)) }, r.2)
    else if key = tx "k_points" then do
      let u ← w[1]?
      let ktyp := u.map Char.toLower
      if has (tx "automatic") ktyp then
        match ls with
        | [] => none
        | l :: ls => do
          let k ← ((words l).take 6).mapM readInt
          pure ({ s with k := some (ktyp, .automatic k) }, ls)
      else if has (tx "gamma") ktyp then pure ({ s with k := some (ktyp, .gamma) }, ls)
      else match ls with
        | [] => none
        | l :: ls => match words l with
          | [x] => do
            let nks ← readInt x
            if nks < 0 then none
            let r ← readK nks.toNat ls
            pure ({ s with k := some (ktyp, .list nks r.1) }, r.2)
          | _ => none
    else if key = tx "cell_parameters" then
      match ls with
      | a :: b :: c :: ls => do
        let x ← row3 a
        let y ← row3 b
        let z ← row3 c
        pure ({ s with cell := some ((w[1]?).getD (tx "bohr"), ![x, y, z]) }, ls)
      | _ => none
    else some (s, ls)

/-- Loop over lines, `elphmod/bravais.py` 1817-1893, with at most the given number of steps. -/
def readCards (d : Dict) : Nat → List Str → Cards → Option Cards
  | 0, _, s => some s
  | _ + 1, [], s => some s
  | f + 1, l :: ls, s => do
    let r ← readCard d (words l) ls s
    readCards d f r.2 r.1

/-- `elphmod/bravais.py` 1796-1897 (`read_pwi`) on one process. -/
def readPwi (fuel : Nat) (text : Str) : Option (Dict × Cards) := do
  let d ← readInput fuel text
  let d := wrap d (tx "celldm")
  let s ← readCards d (lines text).length (lines text) {}
  pure (d, s)

end Verif.Pwi
