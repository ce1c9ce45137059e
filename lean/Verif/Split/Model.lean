import Verif.Text.Model

/-!
# Model of `misc.split` (C11)

The delimiters have their default values. The regular expressions are replaced by functions that find the same matches.
-/

namespace Verif.Split

open Verif.Text (Str isSpace showNat digitVal readDigits)

/-- `[^{}]` -/
def noBrace (c : Char) : Bool := c != '{' && c != '}'

/-- `elphmod/misc.py` 712-713 and 725, `re.subn(group, pack, expr)`: replace all (leftmost, nonoverlapping) innermost brackets by
`<n>` and append their contents to the list of groups. -/
def pass (G : List Str) (s : Str) : Str × List Str :=
  match s with
  | [] => ([], G)
  | c :: r =>
    if c = '{' then
      match _h : r.dropWhile noBrace with
      | '}' :: rest =>
        let p := pass (G ++ [r.takeWhile noBrace]) rest
        ('<' :: (showNat G.length ++ '>' :: p.1), p.2)
      | _ =>
        let p := pass G r
        (c :: p.1, p.2)
    else
      let p := pass G r
      (c :: p.1, p.2)
termination_by s.length
decreasing_by
  · have h1 := congrArg List.length _h
    have h2 := (List.dropWhile_suffix noBrace (l := r)).length_le
    simp only [List.length_cons] at h1 ⊢
    omega
  all_goals simp

/-- `elphmod/misc.py` 723-725: repeat until there is nothing left to replace. -/
def packLoop : Nat → List Str → Str → Option (Str × List Str)
  | 0, _, _ => none
  | f + 1, G, s =>
    let p := pass G s
    if p.2.length = G.length then some p else packLoop f p.2 p.1

/-- ASCII digit. -/
def isDigit (c : Char) : Bool := (digitVal c).isSome

/-- `re.match(r'(.*)<(\d+)>(.*)', x)` for one line: text before the last group, number of the group, text after the group. -/
def lastGroup : Str → Option (Str × Nat × Str)
  | [] => none
  | c :: r => match lastGroup r with
    | some (p, n, s) => some (c :: p, n, s)
    | none =>
      if c = '<' then
        match readDigits 0 (r.takeWhile isDigit), r.dropWhile isDigit with
        | some n, '>' :: s => if r.takeWhile isDigit = [] then none else some ([], n, s)
        | _, _ => none
      else none

/-- `s.split(',')` -/
def splitOn : Str → List Str
  | [] => [[]]
  | c :: r =>
    if c = ',' then [] :: splitOn r
    else match splitOn r with
      | [] => [[c]]
      | h :: t => (c :: h) :: t

/-- `s.rstrip()` -/
def rstrip : Str → Str
  | [] => []
  | c :: r => match rstrip r with
    | [] => if isSpace c then [] else [c]
    | d :: r' => c :: d :: r'

/-- `s.strip()` -/
def strip (s : Str) : Str := rstrip (s.dropWhile isSpace)

/-- `elphmod/misc.py` 727-735 (`factorize`): `none` if not finished within the given number of nested calls or if there is an
exception. The dot of regular expressions does not match line breaks. -/
def factorize (G : List Str) : Nat → Str → Option (List Str)
  | 0, _ => none
  | f + 1, x => match lastGroup (x.takeWhile (· ≠ '\n')) with
    | none => some [x]
    | some (p, n, s) => match G[n]? with
      | none => none
      | some body => ((splitOn body).mapM fun y => factorize G f (p ++ (strip y ++ s))).map List.flatten

/-- `elphmod/misc.py` 693-737 (`split`) with at most `fuel` iterations and nested calls. -/
def split (fuel : Nat) (expr : Str) : Option (List Str) :=
  match packLoop fuel [] ('{' :: (expr ++ ['}'])) with
  | none => none
  | some (x, G) => factorize G fuel x

end Verif.Split
