import Verif.Text.Lemmas

/-!
# Output of `pw.x`: `read_Fermi_level`, `read_pwo` and `read_eps_nk_from_qe_pwo` in `elphmod/el.py`

A file is the list of its lines (with terminators). Numbers are rational.
-/

namespace Verif.Pwo

open Verif.Text

/-- Exceptions: `ValueError` and others (`IndexError`, `TypeError`, `StopIteration`, `UnboundLocalError`). -/
inductive Exc
  | value
  | other
  deriving DecidableEq

/-- `text in line` -/
def has (text : Str) : Str → Bool
  | [] => text == []
  | c :: r => text.isPrefixOf (c :: r) || has text r

/-- `words[i]` -/
def word (ws : List Str) (i : Int) : Except Exc Str :=
  match pyIndex ws.length i with
  | some j => .ok (ws.getD j [])
  | none => .error .other

/-- `float(s)` -/
def float (s : Str) : Except Exc ℚ :=
  match readFloat s with
  | some x => .ok x
  | none => .error .value

/-- `int(s)` -/
def int (s : Str) : Except Exc Int :=
  match readInt s with
  | some x => .ok x
  | none => .error .value

/-- `float(line.split()[i])` -/
def floatAt (line : Str) (i : Int) : Except Exc ℚ := word (words line) i >>= float

/-- `int(line.split()[i])` -/
def intAt (line : Str) (i : Int) : Except Exc Int := word (words line) i >>= int

/-! ### `read_Fermi_level` -/

/-- `elphmod/el.py` 1309-1314: one line. -/
def levelStep (eF : Option ℚ) (line : Str) : Except Exc (Option ℚ) :=
  if has "the Fermi energy is".toList line then (floatAt line (-2)).map some
  else if has "highest occupied level".toList line then (floatAt line (-1)).map some
  else .ok eF

/-- `elphmod/el.py` 1306-1314: loop over lines. -/
def levelLoop : Option ℚ → List Str → Except Exc (Option ℚ)
  | eF, [] => .ok eF
  | eF, l :: ls => do levelLoop (← levelStep eF l) ls

/-- `elphmod/el.py` 1293-1316 (`read_Fermi_level`). -/
def readFermiLevel (file : List Str) : Except Exc (Option ℚ) := levelLoop none file

/-! ### `read_pwo` -/

/-- Variables of `read_pwo` on the first process; `eF = none` is an unbound variable. -/
structure Vars where
  Ne : Option ℚ
  Ns : Option Int
  Nk : Option Int
  E : Option ℚ
  eF : Option ℚ
  e : List (List ℚ)
  given : Bool

/-- `elphmod/el.py` 1322-1323. -/
def Vars.init : Vars := ⟨none, none, none, none, none, [], false⟩

/-- `elphmod/el.py` 1357-1359: energies for one k point, remaining lines. In the case of `ValueError`, the energies so far are
also returned. -/
def rowLoop (Ns : Int) : List ℚ → List Str → Except (Exc × List ℚ × List Str) (List ℚ × List Str)
  | acc, [] => if (acc.length : Int) < Ns then .error (.other, acc, []) else .ok (acc, [])
  | acc, l :: ls =>
    if (acc.length : Int) < Ns then
      match (words l).mapM readFloat with
      | some xs => rowLoop Ns (acc ++ xs) ls
      | none => .error (.value, acc, ls)
    else .ok (acc, l :: ls)

/-- `elphmod/el.py` 1351-1359: energies for all k points, remaining lines. -/
def kLoop (Ns : Int) : Nat → List (List ℚ) → List Str → Except (Exc × List (List ℚ) × List Str) (List (List ℚ) × List Str)
  | 0, e, ls => .ok (e, ls)
  | n + 1, e, ls =>
    if ls.length < 3 then .error (.other, e, [])
    else match rowLoop Ns [] (ls.drop 3) with
      | .ok (r, ls) => kLoop Ns n (e ++ [r]) ls
      | .error (x, r, ls) => .error (x, e ++ [r], ls)

/-- `elphmod/el.py` 1347-1364: reading of the energies, new variables and remaining lines. -/
def bandStep (v : Vars) (ls : List Str) : Except Exc (Vars × List Str) :=
  match v.Nk, v.Ns with
  | some Nk, Ns =>
    match (match Ns with
      | some Ns => kLoop Ns Nk.toNat [] ls
      | none => if Nk.toNat = 0 then .ok ([], ls) else .error (Exc.other, [], [])) with
    | .ok (e, ls) => .ok ({ v with e := e, given := true }, ls)
    | .error (.value, e, ls) => .ok ({ v with e := e }, ls)
    | .error (.other, _, _) => .error .other
  | none, _ => .error .other

/-- `elphmod/el.py` 1327-1364: one round of the loop over lines; `Ry` is the energy unit. -/
def pwoStep (Ry : ℚ) (v : Vars) (line : Str) (ls : List Str) : Except Exc (Vars × List Str) :=
  if has "number of electrons".toList line then do
    let x ← floatAt line (-1)
    .ok ({ v with Ne := some x }, ls)
  else if has "number of Kohn-Sham states".toList line then do
    let n ← intAt line (-1)
    .ok ({ v with Ns := some n }, ls)
  else if has "number of k points".toList line then do
    let n ← intAt line 4
    .ok ({ v with Nk := some n }, ls)
  else if has "the Fermi energy is".toList line then do
    let x ← floatAt line (-2)
    .ok ({ v with eF := some x }, ls)
  else if has "highest occupied, lowest unoccupied level".toList line then
    match ((words line).drop ((words line).length - 2)).mapM readFloat with
    | some xs => .ok ({ v with eF := some (xs.sum / 2) }, ls)
    | none => .error .value
  else if "!".toList.isPrefixOf line then do
    let x ← floatAt line (-2)
    .ok ({ v with E := some (x * Ry) }, ls)
  else if has "End of self-consistent calculation".toList line then bandStep v ls
  else .ok (v, ls)

/-- `elphmod/el.py` 1325-1364: loop over lines (at most `fuel`). -/
def pwoLoop (Ry : ℚ) : Nat → Vars → List Str → Except Exc Vars
  | 0, v, _ => .ok v
  | _ + 1, v, [] => .ok v
  | f + 1, v, l :: ls => do
    let r ← pwoStep Ry v l ls
    pwoLoop Ry f r.1 r.2

/-- `np.array(e) - eF`: lists of different lengths are not allowed. -/
def shift (e : List (List ℚ)) (eF : ℚ) : Except Exc (List (List ℚ)) :=
  if e.all fun r => r.length = (e.headD []).length then .ok (e.map fun r => r.map fun x => x - eF) else .error .value

/-- `elphmod/el.py` 1366-1380: result. -/
def pwoResult (v : Vars) : Except Exc (Option (List (List ℚ)) × Option ℚ × Option ℚ) :=
  if v.given then
    match v.eF with
    | some eF => (shift v.e eF).map fun e => (some e, v.Ne, v.E)
    | none => .error .other
  else .ok (none, v.Ne, v.E)

/-- `elphmod/el.py` 1318-1380 (`read_pwo`): energies `e`, number of electrons and total energy. -/
def readPwo (Ry : ℚ) (file : List Str) : Except Exc (Option (List (List ℚ)) × Option ℚ × Option ℚ) :=
  pwoLoop Ry file.length .init file >>= pwoResult

end Verif.Pwo
