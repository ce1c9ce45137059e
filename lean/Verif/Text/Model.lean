import Mathlib.Algebra.Order.Floor.Ring
import Mathlib.Algebra.Order.Ring.Abs
import Mathlib.Data.Rat.Floor
import Mathlib.Data.Int.Log

/-!
# Formatted text: the parts of Python's `%` operator, `str.split`, `int` and `float` that the code relies on

Texts are lists of characters. Finite floating-point numbers are rational numbers; the conversion of decimal to binary
numbers upon reading is assumed to be exact. These definitions model the Python language (not code of the repository);
they are used by the models of all text formats.
-/

namespace Verif.Text

/-- Text, line, word. -/
abbrev Str := List Char

/-- White space in the sense of `str.split` (ASCII). -/
def isSpace (c : Char) : Bool := c == ' ' || c == '\n' || c == '\t' || c == '\r' || c == '\x0b' || c == '\x0c'

/-! ### Integers -/

/-- Digit. -/
def digitChar (d : Nat) : Char := Char.ofNat (48 + d)

/-- Value of a digit. -/
def digitVal (c : Char) : Option Nat := if 48 ≤ c.toNat ∧ c.toNat ≤ 57 then some (c.toNat - 48) else none

/-- Decimal digits, at most `f + 1`. -/
def showAux : Nat → Nat → Str
  | 0, n => [digitChar (n % 10)]
  | f + 1, n => if n < 10 then [digitChar n] else showAux f (n / 10) ++ [digitChar (n % 10)]

/-- `'%d' % n` for `n >= 0`. -/
def showNat (n : Nat) : Str := showAux n n

/-- `'%d' % z`. -/
def showInt (z : Int) : Str := if z < 0 then '-' :: showNat z.natAbs else showNat z.natAbs

/-- Value of a sequence of digits. -/
def readDigits : Nat → Str → Option Nat
  | acc, [] => some acc
  | acc, c :: s => match digitVal c with
    | some d => readDigits (acc * 10 + d) s
    | none => none

/-- `int(s)` without sign (and without white space and underscores, which Python ignores). -/
def readNat (s : Str) : Option Nat := if s = [] then none else readDigits 0 s

/-- Sign and rest. -/
def sign : Str → Bool × Str
  | '-' :: s => (true, s)
  | '+' :: s => (false, s)
  | s => (false, s)

/-- `int(s)`, `none` is an exception. -/
def readInt (s : Str) : Option Int :=
  (readNat (sign s).2).map fun n : Nat => if (sign s).1 then -(n : Int) else (n : Int)

/-! ### Floating-point numbers -/

/-- Nearest integer, half to even. -/
def roundEven (x : ℚ) : ℤ :=
  if Int.fract x < 1 / 2 then ⌊x⌋ else if 1 / 2 < Int.fract x then ⌊x⌋ + 1 else if ⌊x⌋ % 2 = 0 then ⌊x⌋ else ⌊x⌋ + 1

/-- Right-justified text, filled with `c`. -/
def padWith (c : Char) (w : Nat) (s : Str) : Str := List.replicate (w - s.length) c ++ s

/-- `'%ws' % s`. -/
def padLeft (w : Nat) (s : Str) : Str := padWith ' ' w s

/-- `'%-ws' % s`. -/
def padRight (w : Nat) (s : Str) : Str := s ++ List.replicate (w - s.length) ' '

/-- `'%.df' % x` for `d > 0`. -/
def showFixed (d : Nat) (x : ℚ) : Str :=
  let z := (roundEven (|x| * 10 ^ d)).natAbs
  (if x < 0 then ['-'] else []) ++ showNat (z / 10 ^ d) ++ '.' :: padWith '0' d (showNat (z % 10 ^ d))

/-- Mantissa, an integer with `d + 1` digits (or zero), and exponent of `x` in `'%.de' % x`. -/
def mantissa (d : Nat) (x : ℚ) : Nat × Int :=
  if x = 0 then (0, 0)
  else
    let e := Int.log 10 |x|
    let m := (roundEven (|x| * 10 ^ ((d : Int) - e))).natAbs
    if m = 10 ^ (d + 1) then (10 ^ d, e + 1) else (m, e)

/-- `'%.de' % x` for `d > 0` (`'%.dE' % x` with another `c`). -/
def showExp (c : Char) (d : Nat) (x : ℚ) : Str :=
  let m := mantissa d x
  (if x < 0 then ['-'] else []) ++ showNat (m.1 / 10 ^ d) ++ '.' :: padWith '0' d (showNat (m.1 % 10 ^ d)) ++
    c :: (if m.2 < 0 then '-' else '+') :: padWith '0' 2 (showNat m.2.natAbs)

/-- Value of digits with a decimal point. -/
def readMantissa (s : Str) : Option ℚ :=
  let i := s.takeWhile (· ≠ '.')
  let f := (s.dropWhile (· ≠ '.')).tail
  if i = [] ∧ f = [] then none
  else match readDigits 0 i, readDigits 0 f with
    | some i, some f' => some ((i : ℚ) + (f' : ℚ) / 10 ^ f.length)
    | _, _ => none

/-- Is this an exponent character? -/
def isExp (c : Char) : Bool := c == 'e' || c == 'E'

/-- `float(s)` for finite numbers, `none` is an exception. -/
def readFloat (s : Str) : Option ℚ :=
  let t := (sign s).2
  let m := t.takeWhile fun c => !isExp c
  let e := t.dropWhile fun c => !isExp c
  match readMantissa m, (if e = [] then some 0 else readInt e.tail) with
  | some m, some e => some ((if (sign s).1 then -1 else 1) * m * (10 : ℚ) ^ (e : Int))
  | _, _ => none

/-! ### Lines and words -/

/-- `s.split()`, `acc` is the current word. -/
def wordsAux : Str → Str → List Str
  | acc, [] => if acc = [] then [] else [acc]
  | acc, c :: s =>
    if isSpace c then (if acc = [] then wordsAux [] s else acc :: wordsAux [] s) else wordsAux (acc ++ [c]) s

/-- `s.split()`. -/
def words (s : Str) : List Str := wordsAux [] s

/-- Lines of a text with terminators, `acc` is the current line. -/
def linesAux : Str → Str → List Str
  | acc, [] => if acc = [] then [] else [acc]
  | acc, c :: s => if c = '\n' then (acc ++ [c]) :: linesAux [] s else linesAux (acc ++ [c]) s

/-- `for line in text` -/
def lines (s : Str) : List Str := linesAux [] s

/-- Words of all lines. -/
def tokens (s : Str) : List (List Str) := (lines s).map words

/-- Part of a format string: number of literal spaces, minimum width, text of the argument. -/
structure Field where
  sp : Nat
  width : Nat
  text : Str

/-- Formatted line (without terminator). -/
def fmt (l : List Field) : Str := l.flatMap fun f => List.replicate f.sp ' ' ++ padLeft f.width f.text

/-- `'%wd' % z` after `sp` spaces. -/
def fInt (sp w : Nat) (z : Int) : Field := ⟨sp, w, showInt z⟩

/-- `'%w.df' % x` after `sp` spaces. -/
def fFixed (sp w d : Nat) (x : ℚ) : Field := ⟨sp, w, showFixed d x⟩

/-- `'%w.de' % x` after `sp` spaces. -/
def fExp (sp w : Nat) (c : Char) (d : Nat) (x : ℚ) : Field := ⟨sp, w, showExp c d x⟩

/-- `words = line.split(); if words: return words` in a loop over the lines of a file: next nonempty line and rest of the
file. In the code, `None` is returned at the end of the file, which leads to an exception (`none`). -/
def cols : List (List Str) → Option (List Str × List (List Str))
  | [] => none
  | [] :: r => cols r
  | (w :: ws) :: r => some (w :: ws, r)

/-- Index of an array in Python: negative ones count from the end. -/
def pyIndex (n : Nat) (i : Int) : Option Nat :=
  if 0 ≤ i ∧ i < n then some i.toNat else if -(n : Int) ≤ i ∧ i < 0 then some (i + n).toNat else none

end Verif.Text
