import Verif.Text.Model
import Verif.TB.Model

/-!
# Models of the text formats of `elphmod`

Files are texts (lists of characters), exceptions are `none`.
-/

namespace Verif.Text

open Verif.Lattice (V3)
open Verif.TB (lexLe)

/-! ### Wannier90's `_hr.dat` -/

/-- Lattice vector, degeneracy, matrix. -/
structure HrEntry where
  R : V3
  deg : Int
  H : Nat → Nat → ℚ × ℚ

/-- `elphmod/el.py` 730-736: degeneracies, 15 per line; `n` is the number of the next one. -/
def degText : Nat → List Int → Str
  | _, [] => []
  | n, d :: r => fmt [fInt 0 5 d] ++ (if n % 15 = 0 ∨ r = [] then ['\n'] else []) ++ degText (n + 1) r

/-- Fields of `elphmod/el.py` 738-744. -/
def hrFields (R : V3) (a b : Nat) (h : ℚ × ℚ) : List Field :=
  [fInt 0 5 R.1, fInt 0 5 R.2.1, fInt 0 5 R.2.2, fInt 0 5 (a + 1), fInt 0 5 (b + 1), fFixed 0 12 6 h.1, fFixed 0 12 6 h.2]

/-- Order of lattice vectors, `elphmod/el.py` 722. -/
def hrOrder (l : List HrEntry) : List HrEntry := l.mergeSort fun e e' => lexLe e.R e'.R

/-- `elphmod/el.py` 695-744 (`write_hrdat`); `date` is the first line, `size` the number of orbitals. -/
def writeHr (date : Str) (size : Nat) (l : List HrEntry) : Str :=
  date ++ '\n' :: (fmt [fInt 0 12 size] ++ '\n' :: (fmt [fInt 0 12 l.length] ++ '\n' ::
    (degText 1 ((hrOrder l).map HrEntry.deg) ++ (hrOrder l).flatMap fun e => (List.range size).flatMap fun b =>
      (List.range size).flatMap fun a => fmt (hrFields e.R a b (e.H a b)) ++ ['\n'])))

/-- `elphmod/el.py` 645-649: degeneracies. (Lines without words do not matter.) -/
def readDeg (nrpts : Nat) (acc : List ℚ) : List (List Str) → Option (List ℚ × List (List Str))
  | [] => if acc.length < nrpts then none else some (acc, [])
  | l :: r =>
    if acc.length < nrpts then
      match l.mapM readFloat with
      | some v => readDeg nrpts (acc ++ v) r
      | none => none
    else some (acc, l :: r)

/-- Matrix some elements of which have been assigned. -/
abbrev Elements := Nat → Nat → Option (ℚ × ℚ)

/-- Assignment of an element. -/
def setElement (c : Elements) (a b : Nat) (v : ℚ × ℚ) : Elements := fun i j => if i = a ∧ j = b then some v else c i j

/-- `tmp[-k]`. -/
def fromEnd (tmp : List Str) (k : Nat) : Option Str := tmp.reverse[k - 1]?

/-- One line, `elphmod/el.py` 677-680. -/
def hrElement (nw : Nat) (d : ℚ) (c : Elements) (tmp : List Str) : Option Elements :=
  match (fromEnd tmp 4).bind readInt, (fromEnd tmp 3).bind readInt, (fromEnd tmp 2).bind readFloat,
    (fromEnd tmp 1).bind readFloat with
  | some a, some b, some x, some y =>
    if d = 0 then none
    else match pyIndex nw (a - 1), pyIndex nw (b - 1) with
      | some a, some b => some (setElement c a b (x / d, y / d))
      | _, _ => none
  | _, _, _, _ => none

/-- Loop over `range(size)`, `elphmod/el.py` 676-680; `tmp` is the last line. -/
def readHrEntries (nw : Nat) (d : ℚ) : Nat → Elements → List Str → List (List Str) →
    Option (Elements × List Str × List (List Str))
  | 0, c, tmp, ls => some (c, tmp, ls)
  | k + 1, c, _, ls =>
    match cols ls with
    | some (tmp, ls) => match hrElement nw d c tmp with
      | some c => readHrEntries nw d k c tmp ls
      | none => none
    | none => none

/-- Loop over lattice vectors, `elphmod/el.py` 671-683, for degeneracies `ds`. (The variable `tmp` is undefined
before the first line, which is irrelevant if there is at least one orbital.) -/
def readHrBlocks (nw : Nat) : List ℚ → List (List Str) → Option (List (V3 × Elements))
  | [], _ => some []
  | d :: ds, ls =>
    match readHrEntries nw d (nw ^ 2) (fun _ _ => none) [] ls with
    | some (c, tmp, ls) => match (tmp.take 3).mapM readInt, readHrBlocks nw ds ls with
      | some [x, y, z], some r => some (((x, y, z), c) :: r)
      | _, _ => none
    | none => none

/-- `elphmod/el.py` 602-693 (`read_hrdat`) for `_hr.dat` files (`tb = False`), on one process: number of orbitals,
lattice vectors and matrices. -/
def readHr (divideNdegen : Bool) (text : Str) : Option (Nat × List (V3 × Elements)) :=
  match cols (tokens text) with
  | some (w, ls) => match w[2]?, cols ls with
    | some _, some (w, ls) => match (w[0]?).bind readInt, cols ls with
      | some nw, some (w, ls) => match (w[0]?).bind readInt with
        | some nrpts => match readDeg nrpts.toNat [] ls with
          | some (ds, ls) =>
            if nw < 0 ∨ nrpts < 0 then none
            else (readHrBlocks nw.toNat ((if divideNdegen then ds else ds.map fun _ => 1).take nrpts.toNat) ls).map
              fun r => (nw.toNat, r)
          | none => none
        | none => none
      | _, _ => none
    | _, _ => none
  | none => none

/-! ### RESPACK's `dat.Wmat` -/

/-- Fields of `elphmod/elel.py` 278-280. -/
def wmatFields (a b : Nat) (w : ℚ × ℚ) : List Field :=
  [fInt 0 5 (a + 1), fInt 0 4 (b + 1), fFixed 0 20 10 w.1, fFixed 0 20 10 w.2]

/-- `elphmod/elel.py` 266-282 (`to_Wmat`): lattice vectors and matrices; `header` are the three lines of comments. -/
def writeWmat (header : List Str) (size : Nat) (l : List (V3 × (Nat → Nat → ℚ × ℚ))) : Str :=
  (header.flatMap fun h => h ++ ['\n']) ++ l.flatMap fun e =>
    fmt [fInt 0 12 e.1.1, fInt 0 12 e.1.2.1, fInt 0 12 e.1.2.2] ++ ['\n'] ++
      ((List.range size).flatMap fun a => (List.range size).flatMap fun b => fmt (wmatFields a b (e.2 a b)) ++ ['\n']) ++
      ['\n']

/-- `elphmod/misc.py` 651-654: number of orbitals, from the line before the first empty line. `prev` is the preceding
line. -/
def wmatOrbitals (prev : List Str) : List (List Str) → Option Int
  | [] => none
  | l :: r => if l = [] then (prev[0]?).bind readInt else wmatOrbitals l r

/-- State of the loop, `elphmod/misc.py` 665-690. -/
structure WmatState where
  count : Nat
  R : Nat → Option V3
  data : Nat → Elements

/-- One line, `elphmod/misc.py` 665-690. -/
def wmatLine (nR nw : Nat) (s : WmatState) (l : List Str) : Option WmatState :=
  match l with
  | [] => some { s with count := s.count + 1 }
  | [x, y, z] =>
    if s.count < nR then
      match readInt x, readInt y, readInt z with
      | some x, some y, some z => some { s with R := fun n => if n = s.count then some (x, y, z) else s.R n }
      | _, _, _ => none
    else none
  | [n, m, x, y] =>
    match readInt n, readInt m, readFloat x, readFloat y with
    | some n, some m, some x, some y => match pyIndex nw (n - 1), pyIndex nw (m - 1) with
      | some a, some b =>
        if s.count < nR then
          some { s with data := fun n => if n = s.count then setElement (s.data n) a b (x, y) else s.data n }
        else none
      | _, _ => none
    | _, _, _, _ => none
  | _ => some s

/-- `elphmod/misc.py` 632-691 (`read_dat_mat`): number of lattice vectors, lattice vectors, matrices. -/
def readWmat (text : Str) : Option (Nat × (Nat → Option V3) × (Nat → Elements)) :=
  let t := tokens text
  match wmatOrbitals (t.getD 2 []) (t.drop 3) with
  | some nw =>
    if nw < 0 then none
    else
      let nR := (t.length - 3) / (1 + nw.toNat ^ 2 + 1)
      ((t.drop 3).foldlM (wmatLine nR nw.toNat) ⟨0, fun _ => none, fun _ _ _ => none⟩).map fun s => (nR, s.R, s.data)
  | none => none

/-! ### Generic arrays -/

/-- Indices of an array of given shape (C order). -/
def indices : List Nat → List (List Nat)
  | [] => [[]]
  | n :: s => (List.range n).flatMap fun i => (indices s).map (i :: ·)

/-- `integer_format % l`, `elphmod/elph.py` 1581, for the shape `s`: numbers separated by spaces. `sp` is the number of spaces
before the next one. -/
def intFields (sp : Nat) : List Nat → List Nat → List Field
  | n :: s, i :: l => fInt sp (showNat n).length i :: intFields 1 s l
  | _, _ => []

/-- `elphmod/elph.py` 1574-1599 (`write_data`). Real data have no imaginary part. -/
def writeData (cplx : Bool) (shape : List Nat) (data : List Nat → ℚ × ℚ) : Str :=
  fmt (intFields 0 shape shape ++ [⟨1, 0, if cplx then ['C'] else ['R']⟩]) ++ '\n' ::
    (indices shape).flatMap fun i => fmt (intFields 0 shape i ++
      if cplx then [fExp 1 16 'e' 9 (data i).1, fExp 1 16 'e' 9 (data i).2] else [fExp 1 16 'e' 9 (data i).1]) ++ ['\n']

/-- One line, `elphmod/elph.py` 1614-1621. (Lines with less indices than dimensions, which assign to a subarray, are not
modelled.) -/
def dataLine (cplx : Bool) (shape : List Nat) (d : List Nat → Option (ℚ × ℚ)) (l : List Str) :
    Option (List Nat → Option (ℚ × ℚ)) :=
  match (l.take shape.length).mapM readInt, (l.drop shape.length).mapM readFloat with
  | some i, some v =>
    if i.length < shape.length then none
    else match (shape.zip i).mapM fun p => pyIndex p.1 p.2 with
      | some i => match cplx, v with
        | true, [] => some fun j => if j = i then some (0, 0) else d j
        | true, [x] => some fun j => if j = i then some (x, 0) else d j
        | true, [x, y] => some fun j => if j = i then some (x, y) else d j
        | false, x :: _ => some fun j => if j = i then some (x, 0) else d j
        | _, _ => none
      | none => none
  | _, _ => none

/-- `elphmod/elph.py` 1601-1623 (`read_data`): shape, type, values. The method `next` is called, which file objects have in
Python 2 only (`python2`). -/
def readData (python2 : Bool) (text : Str) : Option (List Nat × Bool × (List Nat → Option (ℚ × ℚ))) :=
  if python2 then
    match tokens text with
    | [] => none
    | columns :: rest =>
      match columns.dropLast.mapM readInt, columns.getLast? with
      | some shape, some c =>
        if c ≠ ['R'] ∧ c ≠ ['C'] ∨ ∃ n ∈ shape, n < 0 then none
        else
          let shape := shape.map Int.toNat
          (rest.foldlM (dataLine (c = ['C']) shape) fun _ => none).map fun d => (shape, decide (c = ['C']), d)
      | _, _ => none
  else none

end Verif.Text
