import Mathlib.Analysis.SpecialFunctions.Pow.Real
import Verif.Xml.Model

/-!
# Atomic projections: `read_atomic_projections` and `read_atomic_projections_old` in `elphmod/el.py`

A file is the list of its lines. Numbers in files are rational. Exceptions are `none`. The broadcast from the first process is not modelled. The
order of bands found by `band_order` (cf. C90) is a parameter.
-/

namespace Verif.AtomicProj

open Verif.Text Verif.Xml

/-- `list(map(float, line.split()))` -/
def nums (l : Str) : Option (List ℚ) := (words l).mapM readFloat

/-- `s.strip(chars)` -/
def stripSet (chars s : Str) : Str := ((s.dropWhile (· ∈ chars)).reverse.dropWhile (· ∈ chars)).reverse

/-- `next(data)` without use of the line. -/
def skip : List Str → Option (List Str)
  | [] => none
  | _ :: ls => some ls

/-- `elphmod/el.py` 991-992: key and value. -/
def itemOf (item : Str) : Option (Str × Str) := match splitOn '=' [] item with
  | [key, value] => some (key, stripSet ['"'] value)
  | _ => none

/-- `elphmod/el.py` 990-992: the dictionary, later items first. -/
def header (line : Str) : Option (List (Str × Str)) := do
  let items ← (splitOn ' ' [] (stripSet "<HEADER />\n".toList line)).mapM itemOf
  some items.reverse

/-- `int(header[key])` for the size of an array. -/
def size (h : List (Str × Str)) (key : String) : Option Nat := do
  let n ← intOf (← h.lookup key.toList)
  if n < 0 then none else some n.toNat

/-- What is read for a k point: the point, the energies and the projections onto each of the orbitals. -/
structure Point where
  k : ℚ × ℚ × ℚ
  eps : List ℚ
  proj : List (List (ℚ × ℚ))
  deriving DecidableEq

/-- `k[ik] = ...`; a single number is assigned to all components. -/
def row3 : List ℚ → Option (ℚ × ℚ × ℚ)
  | [x, y, z] => some (x, y, z)
  | [x] => some (x, x, x)
  | _ => none

/-- `elphmod/el.py` 1025-1027: `levels`. -/
def readLevels (bands : Nat) : List Str → List ℚ → Option (List ℚ × List Str)
  | [], acc => if acc.length < bands then none else some (acc, [])
  | l :: ls, acc => if acc.length < bands then do readLevels bands ls (acc ++ (← nums l)) else some (acc, l :: ls)

/-- `elphmod/el.py` 1034-1036: loop over bands. -/
def readComplex : Nat → List Str → Option (List (ℚ × ℚ) × List Str)
  | 0, ls => some ([], ls)
  | _ + 1, [] => none
  | n + 1, l :: ls => match nums l with
    | some [x, y] => (readComplex n ls).map fun r => ((x, y) :: r.1, r.2)
    | _ => none

/-- `elphmod/el.py` 1032-1037: loop over orbitals. -/
def readWfc (bands : Nat) : Nat → List Str → Option (List (List (ℚ × ℚ)) × List Str)
  | 0, ls => some ([], ls)
  | n + 1, ls => do
    let ls ← skip ls
    let (c, ls) ← readComplex bands ls
    let ls ← skip ls
    let (r, ls) ← readWfc bands n ls
    some (c :: r, ls)

/-- `elphmod/el.py` 1020-1038: a k point. -/
def readPoint (bands no : Nat) (ls : List Str) : Option (Point × List Str) := do
  match ← skip ls with
  | [] => none
  | l :: ls =>
    let k ← row3 (← nums l)
    let ls ← skip ls
    let ls ← skip ls
    let (eps, ls) ← readLevels bands ls []
    if eps.length ≠ bands then none
    let ls ← skip ls
    let ls ← skip ls
    let (proj, ls) ← readWfc bands no ls
    let ls ← skip ls
    some (⟨k, eps, proj⟩, ls)

/-- `elphmod/el.py` 1019: loop over k points. -/
def readPoints (bands no : Nat) : Nat → List Str → Option (List Point)
  | 0, _ => some []
  | n + 1, ls => do
    let (p, ls) ← readPoint bands no ls
    (readPoints bands no n ls).map (p :: ·)

/-- `elphmod/el.py` 986-1040: numbers of bands and orbitals, Fermi level, and data. -/
def readNew (ls : List Str) : Option (Nat × Nat × ℚ × List Point) := do
  match ← skip ls with
  | [] => none
  | l :: ls =>
    let h ← header l
    let bands ← size h "NUMBER_OF_BANDS"
    let nk ← size h "NUMBER_OF_K-POINTS"
    let no ← size h "NUMBER_OF_ATOMIC_WFC"
    let mu ← floatOf (← h.lookup "FERMI_ENERGY".toList)
    let ls ← skip ls
    some (bands, no, mu, ← readPoints bands no nk ls)

/-! ### Old format -/

/-- `int(next(data))` after `goto(pattern)`, `elphmod/el.py` 1090-1097. -/
def sizeOld (pattern : String) (ls : List Str) : Option (Nat × List Str) :=
  match (goto pattern.toList ls).2 with
  | [] => none
  | l :: ls => match intOf l with
    | some n => if n < 0 then none else some (n.toNat, ls)
    | none => none

/-- `n` lines with one object each. -/
def readLines {α : Type} (read : Str → Option α) : Nat → List Str → Option (List α × List Str)
  | 0, ls => some ([], ls)
  | _ + 1, [] => none
  | n + 1, l :: ls => match read l with
    | some x => (readLines read n ls).map fun r => (x :: r.1, r.2)
    | none => none

/-- `goto(pattern)` before each of `n` blocks of `m` lines with one object each. -/
def readBlocks {α : Type} (pattern : String) (read : Str → Option α) (m : Nat) : Nat → List Str → Option (List (List α) × List Str)
  | 0, ls => some ([], ls)
  | n + 1, ls => do
    let (x, ls) ← readLines read m (goto pattern.toList ls).2
    (readBlocks pattern read m n ls).map fun r => (x :: r.1, r.2)

/-- `elphmod/el.py` 1127: real and imaginary part separated by a comma. -/
def pairOld (l : Str) : Option (ℚ × ℚ) := match (splitOn ',' [] l).mapM floatOf with
  | some [x, y] => some (x, y)
  | _ => none

/-- Split a list into lists of `n` elements each. -/
def chunks {α : Type} (n : Nat) : Nat → List α → List (List α)
  | 0, _ => []
  | m + 1, l => l.take n :: chunks n m (l.drop n)

/-- `elphmod/el.py` 1082-1130: numbers of bands and orbitals, Fermi level, and data. -/
def readOld (ls : List Str) : Option (Nat × Nat × ℚ × List Point) := do
  let (bands, ls) ← sizeOld "<NUMBER_OF_BANDS " ls
  let (nk, ls) ← sizeOld "<NUMBER_OF_K-POINTS " ls
  let (no, ls) ← sizeOld "<NUMBER_OF_ATOMIC_WFC " ls
  match (goto "<FERMI_ENERGY ".toList ls).2 with
  | [] => none
  | l :: ls =>
    let mu ← floatOf l
    let (k, ls) ← readLines (fun l => nums l >>= row3) nk (goto "<K-POINTS ".toList ls).2
    let (eps, ls) ← readBlocks "<EIG " floatOf bands nk ls
    let (proj, _) ← readBlocks "<ATMWFC." pairOld bands (nk * no) ls
    some (bands, no, mu, (k.zip (eps.zip (chunks no nk proj))).map fun p => ⟨p.1, p.2.1, p.2.2⟩)

/-! ### What is returned -/

/-- Distance of k points. -/
noncomputable def dist (p q : ℚ × ℚ × ℚ) : ℝ :=
  Real.sqrt ((((q.1 - p.1) ^ 2 + (q.2.1 - p.2.1) ^ 2 + (q.2.2 - p.2.2) ^ 2 : ℚ)) : ℝ)

/-- `elphmod/el.py` 1044-1048: all but the first element of `x`. -/
noncomputable def pathTail : ℝ → ℚ × ℚ × ℚ → List (ℚ × ℚ × ℚ) → List ℝ
  | _, _, [] => []
  | x, p, q :: ks => (x + dist p q) :: pathTail (x + dist p q) q ks

/-- `elphmod/el.py` 1044-1048: `x`; there is an `IndexError` without k points. -/
noncomputable def path : List (ℚ × ℚ × ℚ) → Option (List ℝ)
  | [] => none
  | k :: ks => some (0 :: pathTail 0 k ks)

/-- `elphmod/el.py` 1053-1061: energies and projections at a k point, reordered with the row `o` of `band_order`. -/
def reorder (o : List Nat) (p : Point) : Point :=
  ⟨p.k, o.map fun n => p.eps.getD n 0, p.proj.map fun w => o.map fun n => w.getD n (0, 0)⟩

/-- `elphmod/el.py` 1050-1061: energies (optionally from Fermi level) and projections (optionally reordered). -/
def finish (mu : ℚ) (fromFermi : Bool) (o : Option (List Point → List (List Nat))) (ps : List Point) : List Point :=
  let ps := if fromFermi then ps.map fun p => { p with eps := p.eps.map (· - mu) } else ps
  match o with
  | none => ps
  | some o => List.zipWith reorder (o ps) ps

/-- `proj` at a k point: projections for each band and orbital. -/
def bandsOf (bands : Nat) (p : Point) : List (List (ℚ × ℚ)) :=
  (List.range bands).map fun n => p.proj.map fun w => w.getD n (0, 0)

/-- `elphmod/el.py` 1063-1067: squared modulus, optionally with the difference to one. -/
def weights (other : Bool) (proj : List (ℚ × ℚ)) : List ℚ :=
  let w := proj.map fun z => z.1 ^ 2 + z.2 ^ 2
  if other then w ++ [1 - w.sum] else w

/-- What the functions return; the squared projections are those of `squared = True`. -/
structure Result where
  x : List ℝ
  k : List (ℚ × ℚ × ℚ)
  eps : List (List ℚ)
  proj : List (List (List (ℚ × ℚ)))
  proj2 : List (List (List ℚ))

/-- `elphmod/el.py` 1044-1076 and 1134-1156. -/
noncomputable def result (other fromFermi : Bool) (o : Option (List Point → List (List Nat))) (r : Nat × Nat × ℚ × List Point) :
    Option Result := do
  let ps := finish r.2.2.1 fromFermi o r.2.2.2
  let x ← path (r.2.2.2.map (·.k))
  some ⟨x, ps.map (·.k), ps.map (·.eps), ps.map (bandsOf r.1), ps.map fun p => (bandsOf r.1 p).map (weights other)⟩

/-- `elphmod/el.py` 956-1076 (`read_atomic_projections`). -/
noncomputable def readAtomicProjections (other fromFermi : Bool) (o : Option (List Point → List (List Nat))) (ls : List Str) :
    Option Result := do result other fromFermi o (← readNew ls)

/-- `elphmod/el.py` 1078-1156 (`read_atomic_projections_old`). -/
noncomputable def readAtomicProjectionsOld (fromFermi : Bool) (o : Option (List Point → List (List Nat))) (ls : List Str) :
    Option Result := do result false fromFermi o (← readOld ls)

end Verif.AtomicProj
