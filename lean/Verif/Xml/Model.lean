import Verif.Pwo.Model
import Verif.MPI.Model

/-!
# XML files with electron-phonon coupling: `read_xml_files` and `write_xml_files` in `elphmod/elph.py`

A file is the list of its lines (with terminators). Numbers are rational. Exceptions are `none`.
-/

namespace Verif.Xml

open Verif.Text Verif.Pwo

/-! ### `read_xml_files` -/

/-- `s.split(c)` -/
def splitOn (c : Char) : Str → Str → List Str
  | acc, [] => [acc]
  | acc, x :: s => if x = c then acc :: splitOn c [] s else splitOn c (acc ++ [x]) s

/-- `float(s)`, which ignores surrounding white space. -/
def floatOf (s : Str) : Option ℚ :=
  match words s with
  | [w] => readFloat w
  | _ => none

/-- `int(s)`, which ignores surrounding white space. -/
def intOf (s : Str) : Option Int :=
  match words s with
  | [w] => readInt w
  | _ => none

/-- `elphmod/elph.py` 1469-1472 (`goto`): the line with the pattern (`None` at the end of the file) and the rest of the file. -/
def goto (pattern : Str) : List Str → Option Str × List Str
  | [] => (none, [])
  | l :: ls => if has pattern l then (some l, ls) else goto pattern ls

/-- `elphmod/elph.py` 1474-1475 (`intag`). -/
def intag (tag : Str) : Option Str :=
  match tag.dropWhile (· ≠ '>') with
  | [] => none
  | _ :: s => some (s.takeWhile (· ≠ '<'))

/-- `elphmod/elph.py` 1477-1485: a number, in the tag or in the next line. -/
def number (old : Bool) (pattern : Str) (ls : List Str) : Option (Int × List Str) :=
  match old, goto pattern ls with
  | true, (_, l :: ls) => (intOf l).map fun n => (n, ls)
  | true, (_, []) => none
  | false, (some tag, ls) => (intag tag >>= intOf).map fun n => (n, ls)
  | false, (none, _) => none

/-- `elphmod/elph.py` 1501-1503: a complex number. -/
def complexOf (old : Bool) (l : Str) : Option (ℚ × ℚ) :=
  match (if old then (splitOn ',' [] l).mapM floatOf else (words l).mapM readFloat) with
  | some [] => some (0, 0)
  | some [x] => some (x, 0)
  | some [x, y] => some (x, y)
  | _ => none

/-- `elphmod/elph.py` 1452-1456: `band_select`, `none` for -1; `none` for `IndexError`. -/
def bandSelect (nbands : Nat) (bands : List Int) : Option (List (Option Nat)) :=
  bands.zipIdx.foldlM (fun l mn => (pyIndex l.length mn.1).map fun m => l.set m (some mn.2)) (List.replicate nbands none)

/-- Elements of `my_elph[my_iq, my_irep]` (`k1`, `k2`, `m`, `n`); those which have not been set are undefined. -/
abbrev Table := Nat → Nat → Nat → Nat → Option (ℚ × ℚ)

/-- `my_elph[my_iq, my_irep, k1, k2, m, n] = value` -/
def Table.set (t : Table) (k1 k2 m n : Nat) (value : ℚ × ℚ) : Table := fun a b c d =>
  if a = k1 ∧ b = k2 ∧ c = m ∧ d = n then some value else t a b c d

/-- `elphmod/elph.py` 1496-1503: loop over pairs of bands. -/
def valueLoop (old : Bool) (k1 k2 : Nat) : List (Option Nat × Option Nat) → List Str → Table → Option (List Str × Table)
  | [], ls, t => some (ls, t)
  | _ :: _, [], _ => none
  | (some n, some m) :: r, l :: ls, t => do valueLoop old k1 k2 r ls (t.set k1 k2 m n (← complexOf old l))
  | _ :: r, _ :: ls, t => valueLoop old k1 k2 r ls t

/-- `int(round(np.dot(k, a) * nk)) % nk` -/
def meshIndex (nk : Nat) (a : ℚ × ℚ) (x y : ℚ) : Nat := (roundEven ((x * a.1 + y * a.2) * nk) % nk).toNat

/-- `elphmod/elph.py` 1487-1503: one k point. -/
def kStep (old : Bool) (nk : Nat) (sel : List (Option Nat)) (a1 a2 : ℚ × ℚ) (ls : List Str) (t : Table) : Option (List Str × Table) :=
  match (goto "<COORDINATES_XK".toList ls).2 with
  | [] => none
  | l :: ls =>
    match (words l).mapM readFloat with
    | some (x :: y :: _) =>
      valueLoop old (meshIndex nk a1 x y) (meshIndex nk a2 x y) (sel.flatMap fun n => sel.map fun m => (n, m))
        (goto "<PARTIAL_ELPH".toList ls).2 t
    | _ => none

/-- `elphmod/elph.py` 1487: loop over k points. -/
def kLoop (old : Bool) (nk : Nat) (sel : List (Option Nat)) (a1 a2 : ℚ × ℚ) : Nat → List Str → Table → Option Table
  | 0, _, t => some t
  | n + 1, ls, t => do
    let (ls, t) ← kStep old nk sel a1 a2 ls t
    kLoop old nk sel a1 a2 n ls t

/-- `elphmod/elph.py` 1468-1503: one file. If the numbers of k points and bands are wrong, this is only reported (line 1480 and 1485). -/
def readFile (old : Bool) (nk nbands : Nat) (bands : List Int) (a1 a2 : ℚ × ℚ) (ls : List Str) : Option Table := do
  let sel ← bandSelect nbands bands
  let (n, ls) ← number old "<NUMBER_OF_K".toList ls
  if n < 0 then none
  let (_, ls) ← number old "<NUMBER_OF_BANDS".toList ls
  kLoop old nk sel a1 a2 (nk * nk) ls fun _ _ _ _ => none

/-- `elphmod/elph.py` 1428-1505 (`read_xml_files`) on `size` processes for the files `files iq irep`. -/
def readXml (size : Nat) (files : Nat → Nat → List Str) (q rep : List Nat) (bands : List Int) (nbands nk : Nat) (a1 a2 : ℚ × ℚ) (old : Bool) :
    Option (List (List Table)) := do
  (← Verif.MPI.parMap size (fun iq => rep.mapM fun irep => readFile old nk nbands bands a1 a2 (files (iq + 1) (irep + 1))) q).mapM id

/-! ### `write_xml_files` -/

/-- Lines with terminators. -/
def textLines (l : List String) : List Str := l.map fun s => s.toList ++ ['\n']

/-- A text, a number and a text. -/
def intLine (a : String) (n : Nat) (b : String) : Str := a.toList ++ (showInt n ++ (b.toList ++ ['\n']))

/-- `elphmod/elph.py` 1548-1551: `'%23.15E %23.15E %23.15E'`. -/
def kLine (x y : ℚ) : Str :=
  padLeft 23 (showExp 'E' 15 x) ++ (' ' :: padLeft 23 (showExp 'E' 15 y) ++ (' ' :: padLeft 23 (showExp 'E' 15 0) ++ ['\n']))

/-- `elphmod/elph.py` 1560-1561: `'%23.15E,%23.15E'`. -/
def valueLine (g : ℚ × ℚ) : Str := padLeft 23 (showExp 'E' 15 g.1) ++ ',' :: (padLeft 23 (showExp 'E' 15 g.2) ++ ['\n'])

/-- `elphmod/elph.py` 1541-1565: one k point. -/
def kBlock (nbands ik : Nat) (x y : ℚ) (g : Nat → Nat → ℚ × ℚ) : List Str :=
  intLine "    <K_POINT." ik ">" :: ("      <COORDINATES_XK type=\"real\" size=\"3\" columns=\"3\">\n".toList) :: kLine x y ::
    "      </COORDINATES_XK>\n".toList :: intLine "      <PARTIAL_ELPH type=\"complex\" size=\"" (nbands * nbands) "\">" ::
    (((List.range nbands).flatMap fun j => (List.range nbands).map fun i => valueLine (g i j)) ++
      ["      </PARTIAL_ELPH>\n".toList, intLine "    </K_POINT." ik ">"])

/-- `elphmod/elph.py` 1519-1572: one file; `g` is `data[iq, irep]`. -/
def writeFile (nk nbands : Nat) (b1 b2 : ℚ × ℚ) (g : Nat → Nat → Nat → Nat → ℚ × ℚ) : List Str :=
  textLines ["<?xml version=\"1.0\"?>", "<?iotk version=\"1.2.0\"?>", "<?iotk file_version=\"1.0\"?>", "<?iotk binary=\"F\"?>",
    "<?iotk qe_syntax=\"F\"?>", "<Root>", "  <EL_PHON_HEADER>", "    <DONE_ELPH type=\"logical\" size=\"1\">", "      T",
    "    </DONE_ELPH>", "  </EL_PHON_HEADER>", "  <PARTIAL_EL_PHON>", "    <NUMBER_OF_K type=\"integer\" size=\"1\">"] ++
  intLine "      " (nk * nk) "" ::
  (textLines ["    </NUMBER_OF_K>", "    <NUMBER_OF_BANDS type=\"integer\" size=\"1\">"] ++
  intLine "      " nbands "" ::
  (textLines ["    </NUMBER_OF_BANDS>"] ++
  (((List.range nk).flatMap fun k1 => (List.range nk).flatMap fun k2 => kBlock nbands (k1 * nk + k2 + 1)
    ((k1 * b1.1 + k2 * b2.1) / nk) ((k1 * b1.2 + k2 * b2.2) / nk) (g k1 k2)) ++
  textLines ["  </PARTIAL_EL_PHON>", "</Root>"])))

/-- Array of coupling, with or without axes of bands. -/
inductive Data
  | full (nk nbands : Nat) (g : Nat → Nat → Nat → Nat → Nat → Nat → ℚ × ℚ)
  | squeezed (nk : Nat) (g : Nat → Nat → Nat → Nat → ℚ × ℚ)

/-- `elphmod/elph.py` 1507-1572 (`write_xml_files`): the file for `iq` and `irep`. Line 1514 inserts axes of k points into arrays with four
axes. -/
def writeXml (b1 b2 : ℚ × ℚ) (data : Data) (iq irep : Nat) : List Str :=
  match data with
  | .full nk nbands g => writeFile nk nbands b1 b2 (g iq irep)
  | .squeezed nk g => writeFile 1 nk b1 b2 fun _ _ => g iq irep

end Verif.Xml
