import Verif.Proj.Sum
import Verif.Text.Lemmas
import Mathlib.Data.List.Perm.Basic
import Mathlib.Data.List.Nodup

/-!
# Names of orbitals: `read_projwfc_out` in `elphmod/el.py`

The order in which Python runs through a set of strings is arbitrary (and differs from run to run): it is an argument of the model.
-/

namespace Verif.Proj

open Verif.Text (Str isSpace showNat showInt readInt padLeft padRight pyIndex)
open Verif.Split (strip rstrip isDigit)

/-! ### Model -/

/-- `elphmod/el.py` 1179-1185 (`labels`). -/
def labels : List (List Str) :=
  [["s"], ["pz", "px", "py"], ["dz2", "dxz", "dyz", "dx2-y2", "dxy"],
    ["fz3", "fxz2", "fyz2", "fz(x2-y2)", "fxyz", "fx(x2-3y2)", "fy(3x2-y2)"]].map fun l => l.map String.toList

/-- `s[i:j]` for nonnegative `i` and `j`. -/
def slice (s : Str) (i j : Nat) : Str := (s.drop i).take (j - i)

/-- `l[i]` for an integer `i`; `none` is an `IndexError`. -/
def item {α : Type} (l : List α) (i : Int) : Option α := (pyIndex l.length i).bind fun n => l[n]?

/-- `elphmod/el.py` 1197-1208: name of the orbital in a line, `none` is an exception. `int` ignores surrounding white space. -/
def orbitalName (info : Str) : Option Str := do
  let X := strip (slice info 28 31)
  let n ← readInt (strip (slice info 38 40))
  let l ← readInt (strip [← info[44]?])
  if (← info[46]?) = 'm' then
    let m ← readInt (strip (slice info 48 50))
    let label ← item (← item labels l) (m - 1)
    some (X ++ '-' :: (showInt n ++ label))
  else
    let label ← item (← item labels l) 0
    some (X ++ '-' :: (showInt n ++ [← label[0]?]))

/-- `text in line` -/
def contains (text : Str) : Str → Bool
  | [] => text == []
  | c :: r => text.isPrefixOf (c :: r) || contains text r

/-- State of the loop over lines: search (`0`), two lines to be skipped (`1`, `2`), list of orbitals (`3`). -/
abbrev Mode := Nat

/-- `elphmod/el.py` 1187-1210: loop over lines. `next` at the end of the file is an exception, except for the one with a default. -/
def scan : Mode → List Str → List Str → Option (List Str)
  | 0, [], acc => some acc
  | 3, [], acc => some acc
  | _, [], _ => none
  | 0, line :: r, acc => scan (if contains "Atomic states used for projection".toList line then 1 else 0) r acc
  | 1, _ :: r, acc => scan 2 r acc
  | 2, _ :: r, acc => scan 3 r acc
  | _, line :: r, acc =>
    if rstrip line = [] then scan 0 r acc
    else (orbitalName (rstrip line)).bind fun o => scan 3 r (acc ++ [o])

/-- `s.replace('-', text + '-', 1)` -/
def insertDash (text : Str) : Str → Str
  | [] => []
  | c :: r => if c = '-' then text ++ c :: r else c :: insertDash text r

/-- `elphmod/el.py` 1214-1218: all occurrences of one name are numbered; `m` is the number of the next one. -/
def number (orbital : Str) : Nat → List Str → List Str
  | _, [] => []
  | m, o :: r => if orbital = o then insertDash (showNat m) o :: number orbital (m + 1) r else o :: number orbital m r

/-- `elphmod/el.py` 1213-1218: one round of the loop over the set of orbitals. -/
def numberStep (orbitals : List Str) (orbital : Str) : List Str :=
  if orbitals.count orbital > 1 then number orbital 1 orbitals else orbitals

/-- `elphmod/el.py` 1158-1227 (`read_projwfc_out`); `order`: the elements of the set in the order of iteration. -/
def readProjwfcOut (order : List Str → List Str) (text : List Str) (other : Bool) : Option (List Str) :=
  (scan 0 text []).map fun orbitals =>
    (order orbitals).foldl numberStep orbitals ++ if other then ["X-x".toList] else []

/-- The function runs once through the set of all elements of the list. -/
def IsSetOrder (order : List Str → List Str) : Prop := ∀ l, (order l).Nodup ∧ ∀ s, s ∈ order l ↔ s ∈ l

/-! ### Specification -/

/-- Symmetry of real spherical harmonics in the order used by `projwfc.x`. -/
def harmonic : Nat → Nat → String
  | 0, _ => ""
  | 1, 1 => "z"
  | 1, 2 => "x"
  | 1, _ => "y"
  | 2, 1 => "z2"
  | 2, 2 => "xz"
  | 2, 3 => "yz"
  | 2, 4 => "x2-y2"
  | 2, _ => "xy"
  | _, 1 => "z3"
  | _, 2 => "xz2"
  | _, 3 => "yz2"
  | _, 4 => "z(x2-y2)"
  | _, 5 => "xyz"
  | _, 6 => "x(x2-3y2)"
  | _, _ => "y(3x2-y2)"

/-- Atomic state: symbol, number of the wave function of the pseudopotential, angular momentum and, without spin-orbit coupling,
number of the spherical harmonic. With spin-orbit coupling, there is some other text. -/
structure State where
  el : Char × Option Char
  n : Nat
  l : Nat
  m : Option Nat
  index : Nat
  atom : Nat
  soc : Str

/-- Range of quantum numbers and numbers of digits in the file. -/
structure State.Ok (s : State) : Prop where
  upper : isUpper s.el.1
  lower : ∀ d ∈ s.el.2, isLower d
  n : s.n < 100
  l : s.l < 4
  m : ∀ m ∈ s.m, 1 ≤ m ∧ m ≤ 2 * s.l + 1
  index : s.index < 10000
  atom : s.atom < 1000

/-- Line of the file (`projwfc.x`, format `(5X,"state #",i4,": atom ",i3," (",a3,"), wfc ",i2," (l=",i1," m=",i2,")")`, where the
part with `m` is replaced by one with `j` for spin-orbit coupling). -/
def State.line (s : State) : Str :=
  "     state #".toList ++ (padLeft 4 (showNat s.index) ++ (": atom ".toList ++ (padLeft 3 (showNat s.atom) ++ (" (".toList ++
    (padRight 3 (symbol (some s.el)) ++ ("), wfc ".toList ++ (padLeft 2 (showNat s.n) ++ (" (l=".toList ++ (showNat s.l ++
      ((match s.m with
        | some m => " m=".toList ++ padLeft 2 (showNat m)
        | none => " j=".toList ++ s.soc) ++ [')', '\n']))))))))))

/-- Symmetry label. -/
def State.sym (s : State) : String :=
  match s.m with
  | some m => harmonic s.l m
  | none => ""

/-- Orbital with a given number of the atom. -/
def State.orb (s : State) (num : Str) : Orb where
  el := some s.el
  num := num
  n := showNat s.n
  l := some ("spdf".toList.getD s.l 's', s.sym.toList)
  dash := true

/-- Kind of orbital, regardless of the atom. -/
def State.kind (s : State) : (Char × Option Char) × Nat × Nat × String :=
  (s.el, s.n, s.l, s.sym)

/-- Orbitals with numbers: if there are several of the same kind, they are numbered in the order of appearance. -/
def numbered (states : List State) : List Orb :=
  states.mapIdx fun i s => s.orb (if 1 < (states.map State.kind).count s.kind
    then showNat (((states.take i).map State.kind).count s.kind + 1) else [])

/-! ### Lines -/

theorem slice_mid (a b c : Str) (i j : Nat) (ha : a.length = i) (hb : b.length = j - i) : slice (a ++ (b ++ c)) i j = b := by
  subst ha
  simp [slice, hb]

theorem get_mid (a c : Str) (x : Char) (i : Nat) (ha : a.length = i) : (a ++ x :: c)[i]? = some x := by
  subst ha
  simp

theorem padLeft_length (w : Nat) (s : Str) (h : s.length ≤ w) : (padLeft w s).length = w := by
  simp only [padLeft, Verif.Text.padWith_length _ _ _ h]

theorem dropWhile_space (n : Nat) (s : Str) (h : ∀ c ∈ s, isSpace c = false) :
    (List.replicate n ' ' ++ s).dropWhile isSpace = s := by
  rw [List.dropWhile_append_of_pos (by intro c hc; rw [List.eq_of_mem_replicate hc]; rfl)]
  cases s with
  | nil => rfl
  | cons c r => simp [h c (by simp)]

theorem strip_padLeft (w : Nat) (s : Str) (h : ∀ c ∈ s, isSpace c = false) : strip (padLeft w s) = s := by
  rw [strip, padLeft, Verif.Text.padWith, dropWhile_space _ _ h, rstrip_id s h]

theorem rstrip_spaces (s t : Str) (h : ∀ c ∈ s, isSpace c = false) (ht : ∀ c ∈ t, isSpace c) : rstrip (s ++ t) = s := by
  have h0 : ∀ t : Str, (∀ c ∈ t, isSpace c) → rstrip t = [] := by
    intro t
    induction t with
    | nil => intro _; rfl
    | cons c t ih => intro ht; rw [rstrip, ih fun c hc => ht c (by simp [hc])]; simp [ht c (by simp)]
  induction s with
  | nil => exact h0 t ht
  | cons c s ih =>
    rw [List.cons_append, rstrip, ih fun c hc => h c (by simp [hc])]
    cases s with
    | nil => simp [h c (by simp)]
    | cons d s => rfl

theorem rstrip_end (s : Str) (c : Char) (hc : isSpace c = false) (t : Str) (ht : ∀ c ∈ t, isSpace c) :
    rstrip (s ++ c :: t) = s ++ [c] := by
  induction s with
  | nil => exact rstrip_spaces [c] t (by simpa using hc) ht
  | cons d s ih =>
    rw [List.cons_append, rstrip, ih]
    cases s <;> rfl

theorem strip_padRight (w : Nat) (s : Str) (h : ∀ c ∈ s, isSpace c = false) (hs : s ≠ []) : strip (padRight w s) = s := by
  have e : (padRight w s).dropWhile isSpace = padRight w s := by
    cases s with
    | nil => exact absurd rfl hs
    | cons c r => simp [padRight, h c (by simp)]
  rw [strip, e, padRight, rstrip_spaces s _ h]
  intro c hc
  rw [List.eq_of_mem_replicate hc]
  rfl

theorem showNat_space (n : Nat) : ∀ c ∈ showNat n, isSpace c = false :=
  (Verif.Text.Digits.solid (Verif.Text.showNat_digits n) (Verif.Text.showNat_ne n)).2

theorem readInt_showNat (n : Nat) : readInt (showNat n) = some (n : Int) := by
  have h := Verif.Text.readInt_showInt (n : Int)
  rwa [Verif.Text.showInt, if_neg (by omega), Int.natAbs_natCast] at h

theorem showInt_nat (n : Nat) : showInt (n : Int) = showNat n := by
  rw [showInt, if_neg (by omega), Int.natAbs_natCast]

theorem symbol_length (e : Char × Option Char) : (symbol (some e)).length ≤ 3 := by
  obtain ⟨a, _ | d⟩ := e <;> simp [symbol]

theorem symbol_space (s : State) (h : s.Ok) : ∀ c ∈ symbol (some s.el), isSpace c = false := by
  obtain ⟨a, d, hs⟩ : ∃ a d, s.el = (a, d) := ⟨_, _, rfl⟩
  rw [hs]
  have h1 := h.upper
  have h2 := h.lower
  rw [hs] at h1 h2
  cases d with
  | none => simpa [symbol] using upper_not_space a h1
  | some d => simpa [symbol] using ⟨upper_not_space a h1, lower_not_space d (h2 d rfl)⟩

theorem labels_spec (l m : Nat) (hl : l < 4) (hm : 1 ≤ m ∧ m ≤ 2 * l + 1) :
    ((item labels (l : Int)).bind fun L => item L ((m : Int) - 1)) = some ("spdf".toList.getD l 's' :: (harmonic l m).toList) := by
  obtain ⟨h1, h2⟩ := hm
  interval_cases l <;> interval_cases m <;> decide +kernel

theorem labels_first (l : Nat) (hl : l < 4) :
    ((item labels (l : Int)).bind fun L => (item L 0).bind fun s => s[0]?) = some ("spdf".toList.getD l 's') := by
  interval_cases l <;> decide +kernel

theorem assoc10 (a1 b1 a2 b2 a3 b4 a4 b3 a5 c t u : Str) : a1 ++ (b1 ++ (a2 ++ (b2 ++ (a3 ++ (b4 ++ (a4 ++ (b3 ++ (a5 ++
    (c ++ (t ++ u)))))))))) = (a1 ++ (b1 ++ (a2 ++ (b2 ++ a3))) ++ (b4 ++ (a4 ++ (b3 ++ (a5 ++ (c ++ t)))))) ++ u := by
  simp only [List.append_assoc]

theorem line_eq (s : State) : s.line = ("     state #".toList ++ (padLeft 4 (showNat s.index) ++ (": atom ".toList ++
      (padLeft 3 (showNat s.atom) ++ " (".toList))) ++ (padRight 3 (symbol (some s.el)) ++ ("), wfc ".toList ++
      (padLeft 2 (showNat s.n) ++ (" (l=".toList ++ (showNat s.l ++ match s.m with
        | some m => " m=".toList ++ padLeft 2 (showNat m)
        | none => " j=".toList ++ s.soc)))))) ++ ')' :: ['\n'] :=
  assoc10 _ _ _ _ _ _ _ _ _ _ _ _

theorem line_name (s : State) (h : s.Ok) : orbitalName (rstrip s.line) = some (s.orb []).name := by
  have hi : (showNat s.index).length ≤ 4 := Verif.Text.showNat_length _ 4 (by norm_num) (by have := h.index; omega)
  have ha : (showNat s.atom).length ≤ 3 := Verif.Text.showNat_length _ 3 (by norm_num) (by have := h.atom; omega)
  have hn : (showNat s.n).length ≤ 2 := Verif.Text.showNat_length _ 2 (by norm_num) (by have := h.n; omega)
  have hl1 : (showNat s.l).length ≤ 1 := Verif.Text.showNat_length _ 1 (by norm_num) (by have := h.l; omega)
  obtain ⟨cl, hcl⟩ : ∃ c, showNat s.l = [c] := by
    have := Verif.Text.showNat_ne s.l
    cases hs : showNat s.l with
    | nil => exact absurd hs this
    | cons c r => rw [hs] at hl1; simp at hl1; exact ⟨c, by rw [hl1]⟩
  have hX : (padRight 3 (symbol (some s.el))).length = 3 := by
    have := symbol_length s.el
    simp only [padRight, List.length_append, List.length_replicate]
    omega
  have hli := padLeft_length 4 _ hi
  have hla := padLeft_length 3 _ ha
  have hln := padLeft_length 2 _ hn
  obtain ⟨P, hP, hPl⟩ : ∃ P : Str, P = "     state #".toList ++ (padLeft 4 (showNat s.index) ++ (": atom ".toList ++
      (padLeft 3 (showNat s.atom) ++ " (".toList))) ∧ P.length = 28 := by
    refine ⟨_, rfl, ?_⟩
    simp only [List.length_append, hli, hla]
    rfl
  obtain ⟨t, ht⟩ : ∃ t : Str, t = match s.m with
        | some m => " m=".toList ++ padLeft 2 (showNat m)
        | none => " j=".toList ++ s.soc := ⟨_, rfl⟩
  have e : rstrip s.line = P ++ (padRight 3 (symbol (some s.el)) ++ ("), wfc ".toList ++ (padLeft 2 (showNat s.n) ++
      (" (l=".toList ++ ([cl] ++ (t ++ [')'])))))) := by
    have : s.line = (P ++ (padRight 3 (symbol (some s.el)) ++ ("), wfc ".toList ++ (padLeft 2 (showNat s.n) ++
      (" (l=".toList ++ ([cl] ++ t)))))) ++ ')' :: ['\n'] := by
      rw [hP, ht, ← hcl]
      exact line_eq s
    rw [this, rstrip_end _ ')' (by decide) ['\n'] (by decide)]
    simp only [List.append_assoc]
  have eX : slice (rstrip s.line) 28 31 = padRight 3 (symbol (some s.el)) := by rw [e, slice_mid _ _ _ _ _ hPl (by omega)]
  have en : slice (rstrip s.line) 38 40 = padLeft 2 (showNat s.n) := by
    rw [e, ← List.append_assoc, ← List.append_assoc, slice_mid]
    · simp only [List.length_append, hPl, hX]; rfl
    · omega
  have h44 : (P ++ (padRight 3 (symbol (some s.el)) ++ ("), wfc ".toList ++ (padLeft 2 (showNat s.n) ++ " (l=".toList)))).length
      = 44 := by
    simp only [List.length_append, hPl, hX, hln]; rfl
  have e44 : rstrip s.line = (P ++ (padRight 3 (symbol (some s.el)) ++ ("), wfc ".toList ++ (padLeft 2 (showNat s.n) ++
      " (l=".toList)))) ++ cl :: (t ++ [')']) := by
    rw [e]
    simp only [List.append_assoc]
    rfl
  generalize P ++ (padRight 3 (symbol (some s.el)) ++ ("), wfc ".toList ++ (padLeft 2 (showNat s.n) ++ " (l=".toList))) = Q at h44 e44
  have el : (rstrip s.line)[44]? = some cl := by rw [e44, get_mid _ _ _ _ h44]
  have rl : readInt (strip [cl]) = some (s.l : Int) := by
    rw [← hcl, strip_id _ (showNat_space _), readInt_showNat]
  have rn : readInt (strip (padLeft 2 (showNat s.n))) = some (s.n : Int) := by
    rw [strip_padLeft _ _ (showNat_space _), readInt_showNat]
  have sX : strip (padRight 3 (symbol (some s.el))) = symbol (some s.el) :=
    strip_padRight _ _ (symbol_space s h) (by obtain ⟨a, _ | d⟩ := s.el <;> simp [symbol])
  have e46 (c : Char) (u : Str) (hu : t = ' ' :: c :: u) : (rstrip s.line)[46]? = some c := by
    rw [e44, hu, show Q ++ cl :: (' ' :: c :: u ++ [')']) = (Q ++ [cl, ' ']) ++ c :: (u ++ [')']) by simp]
    exact get_mid _ _ _ _ (by simp [h44])
  rw [orbitalName, eX, en, el, sX, rn]
  simp only [Option.bind_eq_bind, Option.bind_some, rl]
  cases hm : s.m with
  | none =>
    rw [hm] at ht
    rw [e46 'j' ('=' :: s.soc) ht]
    simp only [Option.bind_some, show ('j' : Char) ≠ 'm' by decide, if_false]
    have := labels_first s.l h.l
    cases hL : item labels (s.l : Int) with
    | none => rw [hL] at this; simp at this
    | some L =>
      rw [hL, Option.bind_some] at this
      rw [Option.bind_some]
      cases hL0 : item L 0 with
      | none => rw [hL0] at this; simp at this
      | some L0 =>
        rw [hL0, Option.bind_some] at this
        rw [Option.bind_some, this, Option.bind_some, showInt_nat]
        simp [State.orb, State.sym, Orb.name, hm, orbital]
  | some m =>
    rw [hm] at ht
    have hm' := h.m m hm
    rw [e46 'm' ('=' :: padLeft 2 (showNat m)) ht]
    simp only [Option.bind_some, if_true]
    have hmm : slice (rstrip s.line) 48 50 = padLeft 2 (showNat m) := by
      rw [e44, ht, show Q ++ cl :: (" m=".toList ++ padLeft 2 (showNat m) ++ [')']) =
        (Q ++ (cl :: " m=".toList)) ++ (padLeft 2 (showNat m) ++ [')']) by simp]
      refine slice_mid _ _ _ _ _ (by simp [h44]) ?_
      rw [padLeft_length]
      exact Verif.Text.showNat_length _ 2 (by norm_num) (by have := h.l; omega)
    rw [hmm, strip_padLeft _ _ (showNat_space _), readInt_showNat, Option.bind_some]
    have := labels_spec s.l m h.l hm'
    cases hL : item labels (s.l : Int) with
    | none => rw [hL] at this; simp at this
    | some L =>
      rw [hL, Option.bind_some] at this
      rw [Option.bind_some, this, Option.bind_some, showInt_nat]
      simp [State.orb, State.sym, Orb.name, hm, orbital]

/-! ### Numbers -/

/-- No digit before the first dash. -/
def Clean (o : Str) : Prop := ∃ a b, o = a ++ '-' :: b ∧ ∀ c ∈ a, c ≠ '-' ∧ isDigit c = false

theorem insertDash_at (d a b : Str) (h : ∀ c ∈ a, c ≠ '-') : insertDash d (a ++ '-' :: b) = a ++ (d ++ '-' :: b) := by
  induction a with
  | nil => simp [insertDash]
  | cons c a ih =>
    rw [List.cons_append, insertDash, if_neg (h c (by simp)), ih fun c hc => h c (by simp [hc])]
    rfl

theorem before_dash (a b : Str) (h : ∀ c ∈ a, c ≠ '-') : (a ++ '-' :: b).takeWhile (fun c => c != '-') = a := by
  rw [List.takeWhile_append_of_pos (by simpa using h)]
  simp

theorem showNat_isDigit (n : Nat) : ∀ c ∈ showNat n, isDigit c := by
  intro c hc
  obtain ⟨d, hd, rfl⟩ := Verif.Text.showNat_digits n c hc
  have : ∀ d : Fin 10, isDigit (Verif.Text.digitChar d) := by decide
  exact this ⟨d, hd⟩

theorem insertDash_ne (o s : Str) (ho : Clean o) (hs : Clean s) (n : Nat) : insertDash (showNat n) o ≠ s := by
  obtain ⟨a, b, rfl, h⟩ := ho
  obtain ⟨a', b', rfl, h'⟩ := hs
  rw [insertDash_at _ _ _ fun c hc => (h c hc).1]
  intro e
  have := congrArg (List.takeWhile fun c => c != '-') e
  rw [← List.append_assoc, before_dash, before_dash _ _ fun c hc => (h' c hc).1] at this
  · have hne := Verif.Text.showNat_ne n
    cases hs : showNat n with
    | nil => exact hne hs
    | cons c r =>
      have h1 := showNat_isDigit n c (by simp [hs])
      have h2 := (h' c (by rw [← this, hs]; simp)).2
      rw [h1] at h2
      cases h2
  · intro c hc
    rcases List.mem_append.mp hc with hc | hc
    · exact (h c hc).1
    · exact (digit_not c (showNat_isDigit n c hc)).1

/-- Names with numbers for all names in `P`; `pre` are the previous names. -/
def tag (L P : List Str) : List Str → List Str → List Str
  | _, [] => []
  | pre, o :: r => (if o ∈ P ∧ 1 < L.count o then insertDash (showNat (pre.count o + 1)) o else o) :: tag L P (pre ++ [o]) r

theorem tag_count (L P : List Str) (s : Str) (hs : Clean s) (hP : s ∉ P) (r : List Str) (hr : ∀ o ∈ r, Clean o) (pre : List Str) :
    (tag L P pre r).count s = r.count s := by
  induction r generalizing pre with
  | nil => rfl
  | cons o r ih =>
    rw [tag, List.count_cons, List.count_cons, ih fun o ho => hr o (by simp [ho])]
    congr 1
    by_cases h : o ∈ P ∧ 1 < L.count o
    · rw [if_pos h]
      have h1 := insertDash_ne o s (hr o (by simp)) hs (pre.count o + 1)
      have h2 : o ≠ s := fun e => hP (e ▸ h.1)
      simp [h1, h2]
    · rw [if_neg h]

theorem number_tag (L P : List Str) (s : Str) (hs : Clean s) (hP : s ∉ P) (hL : 1 < L.count s) (r : List Str)
    (hr : ∀ o ∈ r, Clean o) (pre : List Str) : number s (pre.count s + 1) (tag L P pre r) = tag L (s :: P) pre r := by
  induction r generalizing pre with
  | nil => rfl
  | cons o r ih =>
    have ih := ih (fun o ho => hr o (by simp [ho])) (pre ++ [o])
    rw [tag, tag, number]
    by_cases h : o = s
    · subst h
      rw [List.count_append, List.count_singleton_self] at ih
      simp only [hP, false_and, if_false, if_true, List.mem_cons, true_or, hL, and_self]
      rw [ih]
    · rw [List.count_append, List.count_singleton, beq_false_of_ne h, if_neg (by simp), Nat.add_zero] at ih
      have h1 : ¬ s = if o ∈ P ∧ 1 < L.count o then insertDash (showNat (pre.count o + 1)) o else o := by
        intro e
        by_cases h' : o ∈ P ∧ 1 < L.count o
        · rw [if_pos h'] at e
          exact insertDash_ne o s (hr o (by simp)) hs _ e.symm
        · rw [if_neg h'] at e
          exact h e.symm
      rw [if_neg h1, ih]
      simp only [List.mem_cons, h, false_or]

theorem tag_mono (L P : List Str) (s : Str) (hL : ¬ 1 < L.count s) (r pre : List Str) : tag L (s :: P) pre r = tag L P pre r := by
  induction r generalizing pre with
  | nil => rfl
  | cons o r ih =>
    rw [tag, tag, ih]
    congr 1
    by_cases h : o = s
    · subst h
      simp [hL]
    · simp only [List.mem_cons, h, false_or]

theorem fold_tag (L : List Str) (hL : ∀ o ∈ L, Clean o) (Q : List Str) (hQ : Q.Nodup) (hm : ∀ s ∈ Q, s ∈ L) (P : List Str)
    (hd : ∀ s ∈ Q, s ∉ P) : Q.foldl numberStep (tag L P [] L) = tag L (Q.reverse ++ P) [] L := by
  induction Q generalizing P with
  | nil => rfl
  | cons s Q ih =>
    have hs := hL s (hm s (by simp))
    have hP := hd s (by simp)
    have e : numberStep (tag L P [] L) s = tag L (s :: P) [] L := by
      rw [numberStep, tag_count L P s hs hP L hL]
      by_cases h : 1 < L.count s
      · rw [if_pos h]
        exact number_tag L P s hs hP h L hL []
      · rw [if_neg h, tag_mono L P s h]
    rw [List.foldl_cons, e, ih (List.nodup_cons.mp hQ).2 (fun s hs => hm s (by simp [hs]))]
    · simp
    · intro t ht h
      rcases List.mem_cons.mp h with rfl | h
      · exact (List.nodup_cons.mp hQ).1 ht
      · exact hd t (by simp [ht]) h

theorem tag_nil (L r pre : List Str) : tag L [] pre r = r := by
  induction r generalizing pre with
  | nil => rfl
  | cons o r ih => rw [tag, ih]; simp

theorem tag_index (L P : List Str) (r pre : List Str) : tag L P pre r = r.mapIdx fun i o =>
    if o ∈ P ∧ 1 < L.count o then insertDash (showNat ((pre ++ r.take i).count o + 1)) o else o := by
  induction r generalizing pre with
  | nil => rfl
  | cons o r ih =>
    rw [tag, List.mapIdx_cons, ih]
    simp

theorem showNat_inj (a b : Nat) (h : showNat a = showNat b) : a = b := by
  have := readInt_showNat a
  rw [h, readInt_showNat] at this
  simpa using this.symm

/-! ### Names -/

theorem spdf_mem (l : Nat) (h : l < 4) : "spdf".toList.getD l 's' ∈ ['s', 'p', 'd', 'f', 'x'] := by
  interval_cases l <;> decide

theorem spdf_inj (l l' : Nat) (h : l < 4) (h' : l' < 4) (e : "spdf".toList.getD l 's' = "spdf".toList.getD l' 's') : l = l' := by
  interval_cases l <;> interval_cases l' <;> first | rfl | (revert e; decide)

theorem harmonic_space (l m : Nat) : ∀ c ∈ (harmonic l m).toList, ¬ isSpace c := by
  unfold harmonic
  split <;> decide +kernel

theorem orb_ok (s : State) (h : s.Ok) (num : Str) (hn : ∀ c ∈ num, isDigit c) : (s.orb num).Ok where
  upper := by rintro e ⟨⟩; exact h.upper
  lower := by rintro e ⟨⟩; exact h.lower
  num := hn
  n := showNat_isDigit s.n
  l := by
    rintro p ⟨⟩
    refine ⟨spdf_mem _ h.l, ?_⟩
    unfold State.sym
    cases s.m with
    | none => simp
    | some m => exact harmonic_space _ _
  free := by rintro ⟨⟩
  dash := Or.inl rfl

theorem name_eq (s s' : State) (h : s.Ok) (h' : s'.Ok) (d d' : Str) (hd : ∀ c ∈ d, isDigit c) (hd' : ∀ c ∈ d', isDigit c) :
    (s.orb d).name = (s'.orb d').name ↔ s.kind = s'.kind ∧ d = d' := by
  constructor
  · intro e
    have := congrArg info e
    rw [info_name _ (orb_ok s h d hd), info_name _ (orb_ok s' h' d' hd')] at this
    simp only [Orb.parts, State.orb, List.cons.injEq, reduceCtorEq, if_false, Option.some.injEq, Option.map_some] at this
    obtain ⟨h1, h2, h3, h4, h5, -⟩ := this
    refine ⟨?_, h2⟩
    have e1 := symbol_inj _ _ h1
    have e4 := spdf_inj _ _ h.l h'.l h4.1
    simp only [State.kind, Prod.mk.injEq]
    refine ⟨Option.some.inj e1, showNat_inj _ _ h3, e4, ?_⟩
    exact String.toList_injective h5
  · rintro ⟨e, rfl⟩
    simp only [State.kind, Prod.mk.injEq] at e
    obtain ⟨h1, h2, h3, h4⟩ := e
    simp only [Orb.name, State.orb, h1, h2, h3, h4]

theorem name_dash (s : State) (d : Str) : (s.orb d).name = symbol (some s.el) ++ (d ++ '-' :: (showNat s.n ++ orbital (s.orb d).l)) := by
  simp [Orb.name, State.orb]

theorem symbol_clean (s : State) (h : s.Ok) : ∀ c ∈ symbol (some s.el), c ≠ '-' ∧ isDigit c = false := by
  have key (c : Char) (hc : isUpper c = true ∨ isLower c = true) : c ≠ '-' ∧ isDigit c = false := by
    refine ⟨by rintro rfl; revert hc; decide, ?_⟩
    by_contra h
    have := digit_not c (by simpa using h)
    simp [this] at hc
  obtain ⟨a, d, hs⟩ : ∃ a d, s.el = (a, d) := ⟨_, _, rfl⟩
  rw [hs]
  have h1 := h.upper
  have h2 := h.lower
  rw [hs] at h1 h2
  cases d with
  | none => simpa [symbol] using key a (Or.inl h1)
  | some d => simpa [symbol] using ⟨key a (Or.inl h1), key d (Or.inr (h2 d rfl))⟩

theorem name_clean (s : State) (h : s.Ok) : Clean (s.orb []).name :=
  ⟨symbol (some s.el), showNat s.n ++ orbital (s.orb []).l, by rw [name_dash]; rfl, symbol_clean s h⟩

theorem insert_name (s : State) (h : s.Ok) (d : Str) : insertDash d (s.orb []).name = (s.orb d).name := by
  rw [name_dash, List.nil_append, insertDash_at _ _ _ fun c hc => (symbol_clean s h c hc).1, name_dash]
  rfl

theorem count_congr {α β γ : Type} [BEq β] [LawfulBEq β] [BEq γ] [LawfulBEq γ] (f : α → β) (g : α → γ) (b : β) (c : γ) (l : List α)
    (h : ∀ a ∈ l, f a = b ↔ g a = c) : (l.map f).count b = (l.map g).count c := by
  induction l with
  | nil => rfl
  | cons a l ih =>
    rw [List.map_cons, List.map_cons, List.count_cons, List.count_cons, ih fun a ha => h a (by simp [ha])]
    congr 1
    have := h a (by simp)
    by_cases e : f a = b
    · simp [e, this.mp e]
    · have e' : ¬ g a = c := fun e' => e (this.mpr e')
      simp [e, e']

theorem numbered_names (states : List State) (h : ∀ s ∈ states, s.Ok) (P : List Str)
    (hP : ∀ s ∈ states, (s.orb []).name ∈ P) :
    tag (states.map fun s => (s.orb []).name) P [] (states.map fun s => (s.orb []).name) = (numbered states).map Orb.name := by
  rw [tag_index, numbered]
  apply List.ext_getElem?
  intro i
  rw [List.getElem?_map, List.getElem?_mapIdx, List.getElem?_mapIdx, List.getElem?_map, Option.map_map, Option.map_map]
  cases hs : states[i]? with
  | none => rfl
  | some s =>
    have hm : s ∈ states := List.mem_of_getElem? hs
    have hk : ∀ a ∈ states, (a.orb []).name = (s.orb []).name ↔ a.kind = s.kind := fun a ha =>
      (name_eq a s (h a ha) (h s hm) [] [] (by simp) (by simp)).trans (and_iff_left rfl)
    simp only [Option.map_some, Function.comp_apply, List.nil_append, ← List.map_take]
    rw [count_congr (fun s => (s.orb []).name) State.kind _ s.kind states hk,
      count_congr (fun s => (s.orb []).name) State.kind _ s.kind (states.take i) fun a ha => hk a (List.mem_of_mem_take ha)]
    simp only [hP s hm, true_and]
    by_cases hc : 1 < (states.map State.kind).count s.kind
    · rw [if_pos hc, if_pos hc, insert_name s (h s hm)]
    · rw [if_neg hc, if_neg hc]

/-! ### File -/

theorem contains_iff (text : Str) (s : Str) : contains text s = true ↔ text <:+: s := by
  induction s with
  | nil => simp [contains]
  | cons c r ih =>
    rw [contains, Bool.or_eq_true, ih, List.infix_cons_iff, List.isPrefixOf_iff_prefix]

theorem scan_skip (pre r acc : List Str) (h : ∀ l ∈ pre, ¬ "Atomic states used for projection".toList <:+: l) :
    scan 0 (pre ++ r) acc = scan 0 r acc := by
  induction pre with
  | nil => rfl
  | cons l pre ih =>
    have : ¬ contains "Atomic states used for projection".toList l = true := fun hc => h l (by simp) ((contains_iff _ _).mp hc)
    rw [List.cons_append, scan, if_neg this, ih fun l hl => h l (by simp [hl])]

theorem rstrip_blank (t : Str) (ht : ∀ c ∈ t, isSpace c) : rstrip t = [] := rstrip_spaces [] t (by simp) ht

theorem scan_states (states : List State) (h : ∀ s ∈ states, s.Ok) (r acc : List Str) :
    scan 3 (states.map State.line ++ r) acc = scan 3 r (acc ++ states.map fun s => (s.orb []).name) := by
  induction states generalizing acc with
  | nil => simp
  | cons s states ih =>
    have e := line_name s (h s (by simp))
    have hn : rstrip s.line ≠ [] := by
      rw [line_eq, rstrip_end _ ')' (by decide) ['\n'] (by decide)]
      simp
    rw [List.map_cons, List.cons_append, scan, if_neg hn, e, Option.bind_some, ih fun s hs => h s (by simp [hs])]
    · simp
    all_goals simp

/-- Output of `projwfc.x`: some lines, the heading, two more lines, the states, and either nothing or a blank line and some further
lines. -/
def IsOutput (states : List State) (text : List Str) : Prop :=
  ∃ pre header l1 l2 rest, text = pre ++ header :: l1 :: l2 :: (states.map State.line ++ rest) ∧
    (∀ l ∈ pre, ¬ "Atomic states used for projection".toList <:+: l) ∧ "Atomic states used for projection".toList <:+: header ∧
    (rest = [] ∨ ∃ blank post, rest = blank :: post ∧ (∀ c ∈ blank, isSpace c) ∧
      ∀ l ∈ post, ¬ "Atomic states used for projection".toList <:+: l)

theorem scan_output (states : List State) (h : ∀ s ∈ states, s.Ok) (text : List Str) (ht : IsOutput states text) :
    scan 0 text [] = some (states.map fun s => (s.orb []).name) := by
  obtain ⟨pre, header, l1, l2, rest, rfl, h1, h2, h3⟩ := ht
  rw [scan_skip _ _ _ h1, scan, if_pos ((contains_iff _ _).mpr h2), scan, scan, scan_states states h]
  rcases h3 with rfl | ⟨blank, post, rfl, h4, h5⟩
  · simp [scan]
  · rw [scan, if_pos (rstrip_blank blank h4), ← List.append_nil post, scan_skip _ _ _ h5]
    · simp [scan]
    all_goals simp

/-- The orbitals are listed in the order of the file. Orbitals which occur once have no number, others are numbered in the order of
their occurrence, no matter in which order Python runs through the set of names. -/
theorem C127_names_partial (order : List Str → List Str) (horder : IsSetOrder order) (states : List State) (h : ∀ s ∈ states, s.Ok)
    (text : List Str) (ht : IsOutput states text) (other : Bool) :
    readProjwfcOut order text other = some ((numbered states).map Orb.name ++ if other then ["X-x".toList] else []) := by
  rw [readProjwfcOut, scan_output states h text ht, Option.map_some]
  congr 2
  set L := states.map fun s => (s.orb []).name with hL
  obtain ⟨hn, hm⟩ := horder L
  have hc : ∀ o ∈ L, Clean o := by
    intro o ho
    obtain ⟨s, hs, rfl⟩ := List.mem_map.mp ho
    exact name_clean s (h s hs)
  have e := fold_tag L hc (order L) hn (fun s hs => (hm s).mp hs) [] (by simp)
  rw [tag_nil] at e
  rw [e]
  apply numbered_names states h
  intro s hs
  simp only [List.append_nil, List.mem_reverse]
  exact (hm _).mpr (List.mem_map.mpr ⟨s, hs, rfl⟩)

theorem numbered_get (states : List State) (i : Nat) (s : State) (hs : states[i]? = some s) :
    (numbered states)[i]? = some (s.orb (if 1 < (states.map State.kind).count s.kind
      then showNat (((states.take i).map State.kind).count s.kind + 1) else [])) := by
  rw [numbered, List.getElem?_mapIdx, hs]
  rfl

theorem numbered_nodup (states : List State) (h : ∀ s ∈ states, s.Ok) : ((numbered states).map Orb.name).Nodup := by
  rw [List.nodup_iff_getElem?_ne_getElem?]
  intro i j hij hj
  rw [List.length_map, numbered, List.length_mapIdx] at hj
  have hi : i < states.length := lt_trans hij hj
  have ei : states[i]? = some states[i] := List.getElem?_eq_getElem hi
  have ej : states[j]? = some states[j] := List.getElem?_eq_getElem hj
  rw [List.getElem?_map, List.getElem?_map, numbered_get _ _ _ ei, numbered_get _ _ _ ej, Option.map_some, Option.map_some]
  intro e
  have hd (p : Prop) [Decidable p] (n : Nat) : ∀ c ∈ (if p then showNat n else []), isDigit c := by
    split
    · exact showNat_isDigit n
    · simp
  obtain ⟨hk, hn⟩ := (name_eq _ _ (h _ (List.getElem_mem hi)) (h _ (List.getElem_mem hj)) _ _ (hd _ _) (hd _ _)).mp
    (Option.some.inj e)
  set k := states.map State.kind with hkk
  have hki : k[i]? = some states[j].kind := by rw [hkk, List.getElem?_map, ei, ← hk]; rfl
  have hkj : k[j]? = some states[j].kind := by rw [hkk, List.getElem?_map, ej]; rfl
  have h1 : (k.take i).count states[j].kind + 1 ≤ (k.take j).count states[j].kind := by
    have e1 : (k.take (i + 1)).count states[j].kind = (k.take i).count states[j].kind + 1 := by
      rw [List.take_add_one, hki, List.count_append]
      simp
    rw [← e1]
    exact List.Sublist.count_le _ (List.take_sublist_take_left hij)
  have h2 : (k.take j).count states[j].kind + 1 ≤ k.count states[j].kind := by
    have e1 : (k.take (j + 1)).count states[j].kind = (k.take j).count states[j].kind + 1 := by
      rw [List.take_add_one, hkj, List.count_append]
      simp
    rw [← e1]
    exact List.Sublist.count_le _ (List.take_sublist _ _)
  rw [hk, if_pos (by omega), if_pos (by omega)] at hn
  have := showNat_inj _ _ hn
  rw [List.map_take, List.map_take, ← hkk] at this
  omega

/-- All names are different, also from the one of the remainder. -/
theorem C127_distinct_partial (order : List Str → List Str) (horder : IsSetOrder order) (states : List State)
    (h : ∀ s ∈ states, s.Ok) (text : List Str) (ht : IsOutput states text) (other : Bool) :
    ∃ names, readProjwfcOut order text other = some names ∧ names.Nodup := by
  refine ⟨_, C127_names_partial order horder states h text ht other, ?_⟩
  have hn := numbered_nodup states h
  cases other with
  | false => simpa using hn
  | true =>
    simp only [if_true]
    refine List.Nodup.append hn (by simp) ?_
    intro x hx hx'
    rw [List.mem_singleton] at hx'
    subst hx'
    obtain ⟨o, ho, e⟩ := List.mem_map.mp hx
    obtain ⟨i, hi, rfl⟩ := List.mem_iff_getElem.mp ho
    rw [numbered, List.length_mapIdx] at hi
    have hx := numbered_get states i _ (List.getElem?_eq_getElem hi)
    rw [List.getElem?_eq_getElem (by simpa [numbered] using hi), Option.some.injEq] at hx
    rw [hx] at e
    have hd (p : Prop) [Decidable p] (n : Nat) : ∀ c ∈ (if p then showNat n else []), isDigit c := by
      split
      · exact showNat_isDigit n
      · simp
    have h1 := congrArg info e
    rw [info_name _ (orb_ok _ (h _ (List.getElem_mem hi)) _ (hd _ _))] at h1
    have h2 : info "X-x".toList = [some ['X'], some [], some [], some ['x'], some []] := by decide +kernel
    rw [h2] at h1
    simp only [Orb.parts, State.orb, List.cons.injEq, Option.some.injEq] at h1
    exact Verif.Text.showNat_ne _ h1.2.2.1

/-! ### Atoms -/

abbrev Kind := (Char × Option Char) × Nat × Nat × String

/-- `numbered` with given previous kinds. -/
def numberedAux (tot : Kind → Nat) : List Kind → List State → List Orb
  | _, [] => []
  | pre, s :: r => s.orb (if 1 < tot s.kind then showNat (pre.count s.kind + 1) else []) :: numberedAux tot (pre ++ [s.kind]) r

theorem numberedAux_index (tot : Kind → Nat) (r : List State) (pre : List Kind) : numberedAux tot pre r = r.mapIdx fun i s =>
    s.orb (if 1 < tot s.kind then showNat ((pre ++ (r.take i).map State.kind).count s.kind + 1) else []) := by
  induction r generalizing pre with
  | nil => rfl
  | cons s r ih =>
    rw [numberedAux, List.mapIdx_cons, ih]
    simp

theorem numberedAux_append (tot : Kind → Nat) (a r : List State) (pre : List Kind) :
    numberedAux tot pre (a ++ r) = numberedAux tot pre a ++ numberedAux tot (pre ++ a.map State.kind) r := by
  induction a generalizing pre with
  | nil => simp [numberedAux]
  | cons s a ih => simp [numberedAux, ih]

theorem numberedAux_nodup (tot : Kind → Nat) (a : List State) (h : (a.map State.kind).Nodup) (pre : List Kind) :
    numberedAux tot pre a = a.map fun s => s.orb (if 1 < tot s.kind then showNat (pre.count s.kind + 1) else []) := by
  induction a generalizing pre with
  | nil => rfl
  | cons s a ih =>
    rw [List.map_cons, List.nodup_cons] at h
    rw [numberedAux, ih h.2, List.map_cons]
    congr 1
    apply List.map_congr_left
    intro t ht
    have : s.kind ≠ t.kind := fun e => h.1 (e ▸ List.mem_map.mpr ⟨t, ht, rfl⟩)
    rw [List.count_append, List.count_singleton, beq_false_of_ne this]
    simp

/-- Number of the `i`-th atom among all atoms of its kind, if there are several. -/
def atomNumber (els : List (Char × Option Char)) (i : Nat) (e : Char × Option Char) : Str :=
  if 1 < els.count e then showNat ((els.take i).count e + 1) else []

theorem count_basis (basis : Char × Option Char → List Kind) (hb : ∀ e, (basis e).Nodup) (he : ∀ e, ∀ k ∈ basis e, k.1 = e)
    (els : List (Char × Option Char)) (k : Kind) (hk : k ∈ basis k.1) : (els.map basis).flatten.count k = els.count k.1 := by
  induction els with
  | nil => rfl
  | cons e els ih =>
    rw [List.map_cons, List.flatten_cons, List.count_append, ih, List.count_cons, add_comm]
    congr 1
    by_cases h : e = k.1
    · rw [if_pos (by simp [h]), h, List.count_eq_one_of_mem (hb _) hk]
    · rw [if_neg (by simpa using h)]
      exact List.count_eq_zero.mpr fun hm => h (he e k hm).symm

theorem numberedAux_atoms (tot : Kind → Nat) (basis : Char × Option Char → List Kind) (hb : ∀ e, (basis e).Nodup)
    (he : ∀ e, ∀ k ∈ basis e, k.1 = e) (all : List (Char × Option Char)) (htot : ∀ k, k ∈ basis k.1 → tot k = all.count k.1)
    (els : List (Char × Option Char)) (file : List (List State)) (hf : (file.map fun a => a.map State.kind) = els.map basis)
    (pre : List (Char × Option Char)) :
    numberedAux tot (pre.map basis).flatten file.flatten = (file.mapIdx fun i a => a.map fun s =>
      s.orb (if 1 < all.count s.el then showNat ((pre ++ els.take i).count s.el + 1) else [])).flatten := by
  induction file generalizing els pre with
  | nil => rfl
  | cons a file ih =>
    cases els with
    | nil => simp at hf
    | cons e els =>
      simp only [List.map_cons, List.cons.injEq] at hf
      obtain ⟨h1, h2⟩ := hf
      have ih := ih els h2 (pre ++ [e])
      rw [List.map_append, List.flatten_append, List.map_singleton, List.flatten_singleton, ← h1] at ih
      rw [List.flatten_cons, numberedAux_append, ih, numberedAux_nodup _ _ (h1 ▸ hb e), List.mapIdx_cons, List.flatten_cons]
      simp only [List.append_assoc, List.singleton_append, List.take_succ_cons, List.take_zero, List.append_nil]
      congr 1
      apply List.map_congr_left
      intro s hs
      have hk : s.kind ∈ basis e := h1 ▸ List.mem_map.mpr ⟨s, hs, rfl⟩
      have hke : s.kind.1 = e := he e _ hk
      have hk' : s.kind ∈ basis s.kind.1 := by rw [hke]; exact hk
      rw [htot _ hk', count_basis basis hb he pre _ hk']
      rfl

/-- If all atoms of an element have the same different orbitals and the states are sorted by atoms (no spin-orbit coupling), the
number is the one of the atom among all atoms of the element. -/
theorem C127_atoms_partial (order : List Str → List Str) (horder : IsSetOrder order) (basis : Char × Option Char → List Kind)
    (hb : ∀ e, (basis e).Nodup) (he : ∀ e, ∀ k ∈ basis e, k.1 = e) (els : List (Char × Option Char)) (file : List (List State))
    (hf : (file.map fun a => a.map State.kind) = els.map basis) (h : ∀ a ∈ file, ∀ s ∈ a, s.Ok) (text : List Str)
    (ht : IsOutput file.flatten text) :
    readProjwfcOut order text false =
      some ((file.mapIdx fun i a => a.map fun s => (s.orb (atomNumber els i s.el)).name).flatten) := by
  rw [C127_names_partial order horder file.flatten (by simpa using fun s a ha hs => h a ha s hs) text ht]
  have e : numbered file.flatten = numberedAux (fun k => (file.flatten.map State.kind).count k) [] file.flatten := by
    rw [numberedAux_index, numbered]
    rfl
  have e2 := numberedAux_atoms (fun k => (file.flatten.map State.kind).count k) basis hb he els (by
    intro k hk
    rw [List.map_flatten, hf, count_basis basis hb he els k hk]) els file hf []
  rw [e]
  rw [List.map_nil, List.flatten_nil] at e2
  rw [e2, if_neg (by simp), List.append_nil, List.map_flatten]
  congr 2
  apply List.ext_getElem?
  intro i
  rw [List.getElem?_map, List.getElem?_mapIdx, List.getElem?_mapIdx]
  cases file[i]? with
  | none => rfl
  | some a => simp [atomNumber]

/-! ### Labels with digits -/

/-- Three lines for the labels `S`, `S`, and `S1`. -/
def labelText : List Str :=
  ["Atomic states used for projection\n", "(read from pseudopotential files):\n", "\n",
    "     state #   1: atom   1 (S  ), wfc  1 (l=0 m= 1)\n", "     state #   2: atom   2 (S  ), wfc  1 (l=0 m= 1)\n",
    "     state #   3: atom   3 (S1 ), wfc  1 (l=0 m= 1)\n"].map String.toList

/-- A given order for the names in the file. -/
def someOrder (first : List String) (l : List Str) : List Str :=
  if l = ["S-1s", "S-1s", "S1-1s"].map String.toList then first.map String.toList else l.dedup

theorem someOrder_isSetOrder (a b : String) (h : a = "S-1s" ∧ b = "S1-1s" ∨ a = "S1-1s" ∧ b = "S-1s") :
    IsSetOrder (someOrder [a, b]) := by
  intro l
  unfold someOrder
  by_cases hl : l = ["S-1s", "S-1s", "S1-1s"].map String.toList
  · rw [if_pos hl, hl]
    rcases h with ⟨rfl, rfl⟩ | ⟨rfl, rfl⟩
    · refine ⟨by decide +kernel, fun s => ?_⟩
      simp
    · refine ⟨by decide +kernel, fun s => ?_⟩
      simp [or_comm]
  · rw [if_neg hl]
    exact ⟨List.nodup_dedup l, fun s => List.mem_dedup⟩

/-- With labels such as `S` and `S1`, the names depend on the order in which Python runs through the set, and they may coincide. -/
theorem C127_violated : ∃ (text : List Str) (order order' : List Str → List Str) (names names' : List Str), IsSetOrder order ∧
    IsSetOrder order' ∧ readProjwfcOut order text false = some names ∧ readProjwfcOut order' text false = some names' ∧
    names ≠ names' ∧ names.Nodup ∧ ¬ names'.Nodup :=
  ⟨labelText, someOrder ["S-1s", "S1-1s"], someOrder ["S1-1s", "S-1s"], ["S11-1s", "S2-1s", "S12-1s"].map String.toList,
    ["S1-1s", "S2-1s", "S1-1s"].map String.toList, someOrder_isSetOrder _ _ (Or.inl ⟨rfl, rfl⟩),
    someOrder_isSetOrder _ _ (Or.inr ⟨rfl, rfl⟩), by decide +kernel, by decide +kernel, by decide +kernel, by decide +kernel,
    by decide +kernel⟩

/-! ### Examples -/

/-- 1T-TaS₂ with few orbitals. -/
def sampleFile : List (List State) :=
  [[⟨('T', some 'a'), 1, 0, some 1, 1, 1, []⟩, ⟨('T', some 'a'), 2, 2, some 4, 2, 1, []⟩],
    [⟨('S', none), 1, 1, some 1, 3, 2, []⟩, ⟨('S', none), 1, 1, some 2, 4, 2, []⟩],
    [⟨('S', none), 1, 1, some 1, 5, 3, []⟩, ⟨('S', none), 1, 1, some 2, 6, 3, []⟩]]

theorem sampleFile_ok : ∀ a ∈ sampleFile, ∀ s ∈ a, s.Ok := by
  intro a ha s hs
  simp only [sampleFile, List.mem_cons, List.not_mem_nil, or_false] at ha
  rcases ha with rfl | rfl | rfl <;> simp only [List.mem_cons, List.not_mem_nil, or_false] at hs <;>
    rcases hs with rfl | rfl <;>
    exact ⟨by decide, by decide, by decide, by decide, by intro m hm; cases hm; decide, by decide, by decide⟩

/-- Orbitals of the elements in the example. -/
def sampleBasis (e : Char × Option Char) : List Kind :=
  if e = ('T', some 'a') then [(e, 1, 0, ""), (e, 2, 2, "x2-y2")]
  else if e = ('S', none) then [(e, 1, 1, "z"), (e, 1, 1, "x")] else []

/-- Output with these states. -/
def sampleText : List Str :=
  ["Program PROJWFC\n".toList, "     Atomic states used for projection\n".toList, "     (read from pseudopotential files):\n".toList,
    "\n".toList] ++ (sampleFile.flatten.map State.line ++ ["\n".toList, " k =   0.0000000000\n".toList])

theorem sampleText_isOutput : IsOutput sampleFile.flatten sampleText := by
  refine ⟨["Program PROJWFC\n".toList], _, _, _, _, rfl, ?_, ?_, Or.inr ⟨_, _, rfl, by decide +kernel, ?_⟩⟩
  · simp only [List.mem_singleton, forall_eq]
    decide +kernel
  · exact ⟨"     ".toList, ['\n'], by decide +kernel⟩
  · simp only [List.mem_singleton, forall_eq]
    decide +kernel

example : readProjwfcOut List.dedup sampleText false =
    some ["Ta-1s".toList, "Ta-2dx2-y2".toList, "S1-1pz".toList, "S1-1px".toList, "S2-1pz".toList, "S2-1px".toList] := by
  rw [C127_atoms_partial List.dedup (fun l => ⟨List.nodup_dedup l, fun s => List.mem_dedup⟩) sampleBasis ?_ ?_
    [('T', some 'a'), ('S', none), ('S', none)] sampleFile ?_ sampleFile_ok sampleText sampleText_isOutput]
  · decide +kernel
  · intro e
    unfold sampleBasis
    split
    · simp
    · split <;> simp
  · intro e k hk
    unfold sampleBasis at hk
    split at hk
    · simp only [List.mem_cons, List.not_mem_nil, or_false] at hk
      rcases hk with rfl | rfl <;> rfl
    · split at hk
      · simp only [List.mem_cons, List.not_mem_nil, or_false] at hk
        rcases hk with rfl | rfl <;> rfl
      · cases hk
  · decide +kernel

example : ∃ names, readProjwfcOut List.dedup sampleText true = some names ∧ names.Nodup :=
  C127_distinct_partial List.dedup (fun l => ⟨List.nodup_dedup l, fun s => List.mem_dedup⟩) sampleFile.flatten
    (by intro s hs; obtain ⟨a, ha, h⟩ := List.mem_flatten.mp hs; exact sampleFile_ok a ha s h) sampleText sampleText_isOutput true

end Verif.Proj
