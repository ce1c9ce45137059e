import Verif.Text.Lemmas

/-!
# Fortran namelists

Model of `elphmod.misc.read_namelists` and `elphmod.misc.read_input_data`. Regular expressions are modelled by functions
which search for the leftmost match and, if something has been matched, skip it. Only ASCII characters count as letters,
digits and white space.
-/

namespace Verif.Namelist

open Verif.Text

/-- Values of single items. (`nan`, which is the only special floating-point number that is read, is missing.) -/
inductive Item where
  | int (z : Int)
  | float (x : ℚ)
  | bool (b : Bool)
  | str (s : Str)
  | none
  deriving DecidableEq

/-- Values in the final dictionary. -/
inductive Val where
  | one (i : Item)
  | many (l : List Item)
  deriving DecidableEq

/-! ### Dictionaries -/

/-- `d[k] = v`. -/
def put {α : Type} (d : List (Str × α)) (k : Str) (v : α) : List (Str × α) :=
  if (d.lookup k).isSome then d.map fun e => if e.1 = k then (k, v) else e else d ++ [(k, v)]

/-! ### Comments and strings -/

/-- `elphmod/misc.py` 528-530: comments are removed; the flag tells whether we are in a comment. -/
def stripComments : Bool → Str → Str
  | _, [] => []
  | b, c :: s =>
    if c = '\n' then c :: stripComments false s
    else if b || c == '!' then stripComments true s else c :: stripComments false s

/-- Quotation marks. -/
def isQuote (c : Char) : Bool := c == '\'' || c == '"'

/-- Text up to the closing quotation mark, without any other one, `elphmod/misc.py` 545. -/
def quoted (q : Char) : Str → Option Str
  | [] => none
  | c :: s => if c = q then some [] else if isQuote c then none else (quoted q s).map fun a => c :: a

/-- Placeholder for a string, `elphmod/misc.py` 538. -/
def placeholder (n : Nat) : Str := ['_', '_', '_'] ++ showNat n ++ ['_', '_', '_']

/-- One call of `re.subn`, `elphmod/misc.py` 534-545: protected text and strings found so far. The number tells how many
characters still have to be skipped. -/
def protectPass : List Str → Nat → Str → Str × List Str
  | groups, _, [] => ([], groups)
  | groups, k + 1, _ :: s => protectPass groups k s
  | groups, 0, c :: s =>
    match (if isQuote c then quoted c s else none) with
    | some a =>
      let r := protectPass (groups ++ [c :: a ++ [c]]) (a.length + 1) s
      (placeholder (groups.length + 1) ++ r.1, r.2)
    | none => let r := protectPass groups 0 s; (c :: r.1, r.2)

/-- `elphmod/misc.py` 543-545: repeated until there are no matches. There are fewer quotation marks after each pass, thus
the number of characters is a sufficient bound of the number of passes. -/
def protect : Nat → List Str → Str → Str × List Str
  | 0, groups, s => (s, groups)
  | f + 1, groups, s =>
    let r := protectPass groups 0 s
    if r.2.length = groups.length then r else protect f r.2 r.1

/-! ### Namelists -/

/-- `\w` -/
def isWord (c : Char) : Bool := c.isAlphanum || c == '_'

/-- `.+?/`, `elphmod/misc.py` 551: content. -/
def body : Str → Option Str
  | [] => none
  | c :: s => if '/' ∈ s then some (c :: s.takeWhile fun c => c ≠ '/') else none

/-- `(\w+)(.+?)/`, `elphmod/misc.py` 551: name of at most the given length and content. -/
def nameBody (s : Str) : Nat → Option (Str × Str)
  | 0 => none
  | k + 1 => match body (s.drop (k + 1)) with
    | some c => some (s.take (k + 1), c)
    | none => nameBody s k

/-- `re.finditer`, `elphmod/misc.py` 551. -/
def namelists : Nat → Str → List (Str × Str)
  | _, [] => []
  | k + 1, _ :: s => namelists k s
  | 0, c :: s =>
    match (if c = '&' then nameBody s (s.takeWhile isWord).length else none) with
    | some a => a :: namelists (a.1.length + a.2.length + 1) s
    | none => namelists 0 s

/-- `elphmod/misc.py` 556: spaces around the equal sign. -/
def spaceEq (s : Str) : Str := s.flatMap fun c => if c = '=' then [' ', '=', ' '] else [c]

/-- `elphmod/misc.py` 557: white space before parentheses is removed. -/
def glue : Str → Str
  | [] => []
  | c :: s => if isSpace c = true ∧ (s.dropWhile isSpace).head? = some '(' then glue s else c :: glue s

/-- `elphmod/misc.py` 558: separation at semicolons, commas and white space. (In the code, there may be empty items at
both ends, which are skipped.) -/
def itemize (s : Str) : List Str := words (s.map fun c => if c = ';' ∨ c = ',' then ' ' else c)

/-- Is this a digit? -/
def isDig (c : Char) : Bool := (digitVal c).isSome

/-- `elphmod/misc.py` 566-567: name and index. -/
def keyOf (item : Str) : Str × Int :=
  let l := item.map Char.toLower
  let n := ((l.dropWhile fun c => c ≠ '(').dropWhile fun c => c = '(' ∨ c = ' ').takeWhile isDig
  (l.takeWhile fun c => c ≠ '(', if n = [] then 0 else ((readNat n).getD 0 : Int) - 1)

/-- Match of `___\d+___` at the beginning, `elphmod/misc.py` 578: digits. -/
def placeAt (s : Str) : Option Str :=
  let n := (s.drop 3).takeWhile isDig
  if s.take 3 = ['_', '_', '_'] ∧ n ≠ [] ∧ ((s.drop 3).drop n.length).take 3 = ['_', '_', '_'] then some n else none

/-- One call of `re.subn`, `elphmod/misc.py` 540-541 and 578: text and number of replacements, `none` is an exception. -/
def placePass (groups : List Str) : Nat → Str → Option (Str × Nat)
  | _, [] => some ([], 0)
  | k + 1, _ :: s => placePass groups k s
  | 0, c :: s =>
    match placeAt (c :: s) with
    | some n => do
      let i ← pyIndex groups.length (((readNat n).getD 0 : Int) - 1)
      let g ← groups[i]?
      let r ← placePass groups (n.length + 5) s
      pure (g ++ r.1, r.2 + 1)
    | none => do
      let r ← placePass groups 0 s
      pure (c :: r.1, r.2)

/-- `elphmod/misc.py` 576-578 with at most the given number of passes; `none` is an exception or means that the loop has
not ended yet. -/
def place : Nat → List Str → Str → Option Str
  | 0, _, _ => none
  | f + 1, groups, s => do
    let r ← placePass groups 0 s
    if r.2 = 0 then pure r.1 else place f groups r.1

/-- `re.match(r'(\'.*\'|".*")$', item)`, `elphmod/misc.py` 580: what is between the quotation marks, `elphmod/misc.py` 581.
-/
def unquote (s : Str) : Option Str :=
  match s with
  | q :: t => if isQuote q = true ∧ t.getLast? = some q ∧ '\n' ∉ t then some t.dropLast else none
  | [] => none

/-- `elphmod/misc.py` 580-593: types of values. -/
def convert (item : Str) : Item :=
  match unquote item with
  | some s => .str s
  | none =>
    if item.any fun c => c == 'T' || c == 't' then .bool true
    else if item.any fun c => c == 'F' || c == 'f' then .bool false
    else match readInt item with
      | some z => .int z
      | none => match readFloat (item.map fun c => if c = 'd' ∨ c = 'D' ∨ c = 'E' then 'e' else c) with
        | some x => .float x
        | none => .str item

/-- Bound of a slice in Python. -/
def bound (len : Nat) (n : Int) : Nat := if n < 0 then (n + len).toNat else min n.toNat len

/-- `l[n:n + 1] = [x]` -/
def sliceSet (l : List Item) (n : Int) (x : Item) : List Item :=
  l.take (bound l.length n) ++ x :: l.drop (max (bound l.length n) (bound l.length (n + 1)))

/-- `elphmod/misc.py` 572-573. -/
def pad (l : List Item) (n : Int) : List Item := l ++ List.replicate (n.toNat - l.length) .none

/-- Dictionary while reading. -/
abbrev Raw := List (Str × List Item)

/-- Loop over items, `elphmod/misc.py` 560-596; `key` and `n` are those of the preceding item. -/
def scan (fuel : Nat) (groups : List Str) : List Str → Option (Str × Int) → Raw → Option Raw
  | [], _, d => some d
  | item :: rest, key, d =>
    if rest.head? = some ['='] then
      scan fuel groups rest (some (keyOf item)) (put d (keyOf item).1 (pad ((d.lookup (keyOf item).1).getD []) (keyOf item).2))
    else match key with
      | none => scan fuel groups rest none d
      | some (k, n) =>
        if item = ['='] then scan fuel groups rest (some (k, n)) d
        else do
          let t ← place fuel groups item
          scan fuel groups rest (some (k, n + 1)) (put d k (sliceSet ((d.lookup k).getD []) n (convert t)))

/-- `elphmod/misc.py` 598-600: lists with one element. -/
def single (l : List Item) : Val :=
  match l with
  | [x] => .one x
  | l => .many l

/-- Dictionary of values. -/
abbrev Dict := List (Str × Val)

/-- One namelist, `elphmod/misc.py` 552-600. -/
def content (fuel : Nat) (groups : List Str) (s : Str) : Option Dict :=
  (scan fuel groups (itemize (glue (spaceEq s))) none []).map fun d => d.map fun e => (e.1, single e.2)

/-- Loop over namelists, `elphmod/misc.py` 549-602. -/
def parse (fuel : Nat) (groups : List Str) : List (Str × Str) → List (Str × Dict) → Option (List (Str × Dict))
  | [], data => some data
  | (name, s) :: r, data => do
    let d ← content fuel groups s
    parse fuel groups r (put data (name.map Char.toLower) d)

/-- `elphmod/misc.py` 510-602 (`read_namelists`). `fuel` bounds the number of iterations of the loop in lines 576-578. -/
def readNamelists (fuel : Nat) (text : Str) : Option (List (Str × Dict)) :=
  let t := stripComments false text
  let r := protect t.length [] t
  parse fuel r.2 (namelists 0 r.1) []

/-- `struct.update(namelist)`, `elphmod/misc.py` 623. -/
def update (d e : Dict) : Dict := e.foldl (fun d x => put d x.1 x.2) d

/-- `elphmod/misc.py` 604-630 (`read_input_data`) on one process. -/
def readInput (fuel : Nat) (text : Str) : Option Dict :=
  (readNamelists fuel text).map fun data => data.foldl (fun d e => update d e.2) []

/-! ### Writing values -/

/-- `'%r' % s` for printable ASCII characters and line breaks. -/
def reprStr (s : Str) : Str :=
  let q := if '\'' ∈ s ∧ '"' ∉ s then '"' else '\''
  q :: (s.flatMap fun c => if c = '\\' ∨ c = q then ['\\', c] else if c = '\n' then ['\\', 'n']
    else if c = '\t' then ['\\', 't'] else if c = '\r' then ['\\', 'r'] else [c]) ++ [q]

/-- `'%r' % i`; `rf` is the shortest representation of floating-point numbers. -/
def reprItem (rf : ℚ → Str) : Item → Str
  | .int z => showInt z
  | .float x => rf x
  | .bool true => ['T', 'r', 'u', 'e']
  | .bool false => ['F', 'a', 'l', 's', 'e']
  | .str s => reprStr s
  | .none => ['N', 'o', 'n', 'e']

/-- `'%r' % v`. -/
def reprVal (rf : ℚ → Str) : Val → Str
  | .one i => reprItem rf i
  | .many l => '[' :: List.intercalate [',', ' '] (l.map (reprItem rf)) ++ [']']

/-- `data.write('%s = %r\n' % (key, value))` -/
def entry (key value : Str) : Str := key ++ [' ', '=', ' '] ++ value ++ ['\n']

/-- `for key in keys: if key in struct: data.write('%s = %r\n' % (key, struct[key]))` -/
def entries (rf : ℚ → Str) (struct : Str → Option Val) (keys : List Str) : Str :=
  keys.flatMap fun k => match struct k with
    | some v => entry k (reprVal rf v)
    | none => []

end Verif.Namelist
