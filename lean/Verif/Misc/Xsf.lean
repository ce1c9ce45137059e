import Verif.Text.ArrayFile
import Verif.Misc.Model
import Mathlib.Tactic.IntervalCases

/-!
# Files in XCrySDen format as text: `misc.read_xsf` and `misc.write_xsf`

The index order of the data is the subject of C14. Here, the files are lists of characters and numbers are rounded. Only rank 0 accesses files; the
results are broadcast (not modelled).
-/

namespace Verif.Xsf

open Verif.Text

/-- Three elements. -/
abbrev T3 (α : Type) := α × α × α

/-- Header of a file: origin and spanning vectors of the grid, symbols and positions of atoms, shape of the grid. -/
structure Head where
  r0 : T3 ℚ
  a : T3 (T3 ℚ)
  atoms : List (Str × T3 ℚ)
  n : T3 Int
deriving DecidableEq

/-! ### Models -/

/-- Assignment of a list to an array with three elements: a single number is broadcast, other lengths raise `ValueError`. -/
def assign3 {α : Type} : List α → Option (T3 α)
  | [x, y, z] => some (x, y, z)
  | [x] => some (x, x, x)
  | _ => none

/-- `elphmod/misc.py` 363-364, 384-385: `while next(lines).strip() != key: pass` for a key without white space. -/
def skipTo (key : Str) : List (List Str) → Option (List (List Str))
  | [] => none
  | l :: r => if l = [key] then some r else skipTo key r

/-- `elphmod/misc.py` 379-382: loop over atoms. -/
def readAtoms : Nat → List (List Str) → Option (List (Str × T3 ℚ) × List (List Str))
  | 0, ls => some ([], ls)
  | k + 1, (x :: c) :: ls =>
    (((c.take 3).mapM readFloat).bind assign3).bind fun t => (readAtoms k ls).map fun p => ((x, t) :: p.1, p.2)
  | _, _ => none

/-- Three numbers in one line. -/
def row (l : List Str) : Option (T3 ℚ) := (l.mapM readFloat).bind assign3

/-- `elphmod/misc.py` 387-391: lines with shape, origin and spanning vectors. -/
def readGrid : List (List Str) → Option ((T3 Int × T3 ℚ × T3 (T3 ℚ)) × List (List Str))
  | n :: r0 :: a0 :: a1 :: a2 :: ls =>
    ((n.mapM readInt).bind assign3).bind fun n => (row r0).bind fun r0 => (row a0).bind fun a0 => (row a1).bind fun a1 =>
      (row a2).map fun a2 => ((n, r0, a0, a1, a2), ls)
  | _ => none

/-- `elphmod/misc.py` 360-400: header and rest of the file. A negative number of atoms raises `ValueError` in line 376. -/
def readHead (ls : List (List Str)) : Option (Head × List (List Str)) :=
  (skipTo "PRIMCOORD".toList ls).bind fun ls => match ls with
    | (w :: _) :: ls => (readInt w).bind fun nat => if nat < 0 then none else
      (readAtoms nat.toNat ls).bind fun p => (skipTo "BEGIN_DATAGRID_3D_UNKNOWN".toList p.2).bind fun ls =>
        (readGrid ls).map fun q => (⟨q.1.2.1, q.1.2.2, p.1, q.1.1⟩, q.2)
    | _ => none

/-- `elphmod/misc.py` 405-409: `while i < data.size: for number in next(lines).split()`. Too many numbers raise `IndexError`. -/
def readData (size : Nat) : List (List Str) → List ℚ → Option (List ℚ)
  | [], acc => if size ≤ acc.length then some acc else none
  | l :: ls, acc =>
    if size ≤ acc.length then some acc
    else (l.mapM readFloat).bind fun v => if size < acc.length + v.length then none else readData size ls (acc ++ v)

/-- `elphmod/misc.py` 332-418 (`read_xsf` with `only_header=False`): header and data as function of the three indices. Negative dimensions raise
`ValueError` in line 403 or 411. -/
def readXsf (text : Str) : Option (Head × (Nat → Nat → Nat → Option ℚ)) :=
  (readHead (tokens text)).bind fun p =>
    if p.1.n.1 < 0 ∨ p.1.n.2.1 < 0 ∨ p.1.n.2.2 < 0 then none else
      (readData (p.1.n.1.toNat * p.1.n.2.1.toNat * p.1.n.2.2.toNat) p.2 []).map fun d =>
        (p.1, Misc.xsfGrid p.1.n.1.toNat p.1.n.2.1.toNat d)

/-- `elphmod/misc.py` 332-418 (`read_xsf` with `only_header=True`) -/
def readXsfHead (text : Str) : Option Head := (readHead (tokens text)).map Prod.fst

/-- `'%w0.df %w.df %w.df\n' % tuple(v)`, after `sp` spaces. -/
def rowText (sp w0 w d : Nat) (v : T3 ℚ) : Str := fmt [fFixed sp w0 d v.1, fFixed 1 w d v.2.1, fFixed 1 w d v.2.2] ++ ['\n']

/-- `elphmod/misc.py` 452-454: line of one atom. -/
def atomText (p : Str × T3 ℚ) : Str := padRight 5 p.1 ++ rowText 1 11 11 7 p.2

/-- `elphmod/misc.py` 467-471: numbers, six per line, for the rest of the data, the first element of which has number `i`. -/
def dataText (size : Nat) : Nat → List ℚ → Str
  | _, [] => []
  | i, v :: vs => padLeft 13 (showExp 'e' 5 v) ++ ((if i % 6 = 0 ∨ i = size then ['\n'] else []) ++ dataText size (i + 1) vs)

/-- `elphmod/misc.py` 448-464: part of the file before the data. -/
def headText (h : Head) : Str :=
  "PRIMCOORD\n".toList ++ (fmt [fInt 0 6 h.atoms.length, ⟨2, 0, ['1']⟩] ++ '\n' :: (h.atoms.flatMap atomText ++
    ("BEGIN_BLOCK_DATAGRID_3D\n".toList ++ ("3D_field\n".toList ++ ("BEGIN_DATAGRID_3D_UNKNOWN\n".toList ++
      (fmt [fInt 0 6 h.n.1, fInt 1 5 h.n.2.1, fInt 1 5 h.n.2.2] ++ '\n' :: (rowText 0 12 11 6 h.r0 ++
        (rowText 0 12 11 7 h.a.1 ++ (rowText 0 12 11 7 h.a.2.1 ++ rowText 0 12 11 7 h.a.2.2)))))))))

/-- `elphmod/misc.py` 473-474 -/
def footText : Str := "END_DATAGRID_3D\n".toList ++ "END_BLOCK_DATAGRID_3D\n".toList

/-- `elphmod/misc.py` 420-474 (`write_xsf` with `only_header=False`). The shape in the header is the one of the data, which is given as `data.flat`. -/
def writeXsf (h : Head) (flat : List ℚ) : Str := headText h ++ (dataText flat.length 1 flat ++ footText)

/-- `elphmod/misc.py` 420-474 (`write_xsf` with `only_header=True`) -/
def writeXsfHead (h : Head) : Str := headText h ++ footText

/-! ### Lemmas -/

theorem tokens_key (k : Str) (hk : Solid k) (r : Str) : tokens ((k ++ ['\n']) ++ r) = [k] :: tokens r := by
  have := tokens_fmt [⟨0, 0, k⟩] (by simpa using hk) (by simp) r
  simpa [fmt, padLeft, padWith] using this

theorem tokens_row (sp w0 w d : Nat) (v : T3 ℚ) (r : Str) :
    tokens (rowText sp w0 w d v ++ r) = [showFixed d v.1, showFixed d v.2.1, showFixed d v.2.2] :: tokens r := by
  unfold rowText
  rw [List.append_assoc, List.singleton_append, tokens_fmt _ (by
    intro f hf
    simp only [List.mem_cons, List.not_mem_nil, or_false] at hf
    rcases hf with rfl | rfl | rfl <;> exact fFixed_solid _ _ _ _) (by
    intro f hf
    simp only [List.tail_cons, List.mem_cons, List.not_mem_nil, or_false] at hf
    rcases hf with rfl | rfl <;> exact Or.inl Nat.one_pos)]
  rfl

theorem tokens_atom (p : Str × T3 ℚ) (hp : Solid p.1) (r : Str) :
    tokens (atomText p ++ r) = [p.1, showFixed 7 p.2.1, showFixed 7 p.2.2.1, showFixed 7 p.2.2.2] :: tokens r := by
  have := tokens_fmt [⟨0, 0, p.1⟩, fFixed (5 - p.1.length + 1) 11 7 p.2.1, fFixed 1 11 7 p.2.2.1, fFixed 1 11 7 p.2.2.2] (by
    intro f hf
    simp only [List.mem_cons, List.not_mem_nil, or_false] at hf
    rcases hf with rfl | rfl | rfl | rfl
    · exact hp
    all_goals exact fFixed_solid _ _ _ _) (by
    intro f hf
    simp only [List.tail_cons, List.mem_cons, List.not_mem_nil, or_false] at hf
    rcases hf with rfl | rfl | rfl <;> exact Or.inl (Nat.succ_pos _)) r
  have e : fmt [⟨0, 0, p.1⟩, fFixed (5 - p.1.length + 1) 11 7 p.2.1, fFixed 1 11 7 p.2.2.1, fFixed 1 11 7 p.2.2.2] ++ '\n' :: r =
      atomText p ++ r := by
    simp [fmt, atomText, rowText, padLeft, padWith, padRight, fFixed, List.replicate_succ', List.append_assoc]
  rw [← e, this]
  rfl

/-- Rounding of three numbers. -/
def round3 (d : Nat) (v : T3 ℚ) : T3 ℚ := (roundTo d v.1, roundTo d v.2.1, roundTo d v.2.2)

theorem row_show (d : Nat) (hd : 0 < d) (v : T3 ℚ) :
    row [showFixed d v.1, showFixed d v.2.1, showFixed d v.2.2] = some (round3 d v) := by
  simp [row, readFloat_showFixed d hd, assign3, round3]

theorem readAtoms_text (l : List (Str × T3 ℚ)) (h : ∀ p ∈ l, Solid p.1) (r : Str) :
    readAtoms l.length (tokens (l.flatMap atomText ++ r)) = some (l.map fun p => (p.1, round3 7 p.2), tokens r) := by
  induction l with
  | nil => rfl
  | cons p l ih =>
    rw [List.flatMap_cons, List.append_assoc, tokens_atom p (h p (by simp)), List.length_cons, readAtoms,
      ih fun q hq => h q (by simp [hq])]
    simp [readFloat_showFixed, assign3, round3]

/-- Header after rounding. -/
def Head.round (h : Head) : Head where
  r0 := round3 6 h.r0
  a := (round3 7 h.a.1, round3 7 h.a.2.1, round3 7 h.a.2.2)
  atoms := h.atoms.map fun p => (p.1, round3 7 p.2)
  n := h.n

theorem skipTo_hit (k : Str) (r : List (List Str)) : skipTo k ([k] :: r) = some r := by simp [skipTo]

theorem skipTo_miss (k : Str) (l : List Str) (r : List (List Str)) (h : l ≠ [k]) : skipTo k (l :: r) = skipTo k r := by
  rw [skipTo, if_neg h]

theorem readHead_text (h : Head) (hs : ∀ p ∈ h.atoms, Solid p.1) (r : Str) :
    readHead (tokens (headText h ++ r)) = some (h.round, tokens r) := by
  unfold readHead headText
  simp only [List.append_assoc, List.cons_append]
  have k1 : "PRIMCOORD\n".toList = "PRIMCOORD".toList ++ ['\n'] := by decide
  have k2 : "BEGIN_BLOCK_DATAGRID_3D\n".toList = "BEGIN_BLOCK_DATAGRID_3D".toList ++ ['\n'] := by decide
  have k3 : "3D_field\n".toList = "3D_field".toList ++ ['\n'] := by decide
  have k4 : "BEGIN_DATAGRID_3D_UNKNOWN\n".toList = "BEGIN_DATAGRID_3D_UNKNOWN".toList ++ ['\n'] := by decide
  have n1 : ["BEGIN_BLOCK_DATAGRID_3D".toList] ≠ ["BEGIN_DATAGRID_3D_UNKNOWN".toList] := by decide
  have n2 : ["3D_field".toList] ≠ ["BEGIN_DATAGRID_3D_UNKNOWN".toList] := by decide
  have s1 : Solid "PRIMCOORD".toList := ⟨by decide, by decide⟩
  have s2 : Solid "BEGIN_BLOCK_DATAGRID_3D".toList := ⟨by decide, by decide⟩
  have s3 : Solid "3D_field".toList := ⟨by decide, by decide⟩
  have s4 : Solid "BEGIN_DATAGRID_3D_UNKNOWN".toList := ⟨by decide, by decide⟩
  rw [k1, k2, k3, k4]
  generalize "PRIMCOORD".toList = p1 at *
  generalize "BEGIN_BLOCK_DATAGRID_3D".toList = p2 at *
  generalize "3D_field".toList = p3 at *
  generalize "BEGIN_DATAGRID_3D_UNKNOWN".toList = p4 at *
  rw [tokens_key _ s1, skipTo_hit, tokens_fmt _ (by
    intro f hf
    simp only [List.mem_cons, List.not_mem_nil, or_false] at hf
    rcases hf with rfl | rfl
    · exact fInt_solid _ _ _
    · exact ⟨by simp, by simp [isSpace]⟩) (by
    intro f hf
    simp only [List.tail_cons, List.mem_cons, List.not_mem_nil, or_false] at hf
    subst hf
    exact Or.inl Nat.two_pos)]
  simp only [List.map_cons, Option.bind_some, fInt]
  rw [readInt_showInt, Option.bind_some, if_neg (by omega), Int.toNat_natCast, readAtoms_text _ hs, Option.bind_some,
    tokens_key _ s2, skipTo_miss _ _ _ n1, tokens_key _ s3, skipTo_miss _ _ _ n2, tokens_key _ s4, skipTo_hit, Option.bind_some,
    tokens_fmt _ (by
      intro f hf
      simp only [List.mem_cons, List.not_mem_nil, or_false] at hf
      rcases hf with rfl | rfl | rfl <;> exact showInt_solid _) (by
      intro f hf
      simp only [List.tail_cons, List.mem_cons, List.not_mem_nil, or_false] at hf
      rcases hf with rfl | rfl <;> exact Or.inl Nat.one_pos), tokens_row, tokens_row, tokens_row, tokens_row]
  unfold readGrid
  simp only [row_show 6 (by norm_num), row_show 7 (by norm_num), List.map_cons, List.map_nil]
  simp [readInt_showInt, assign3, Head.round]

/-- Numbers that are written with two digits in the exponent. -/
def Moderate (x : ℚ) : Prop := x = 0 ∨ (10 : ℚ) ^ (-99 : ℤ) ≤ |x| ∧ |x| < 10 ^ (99 : ℤ)

theorem mantissa_lt (d : Nat) (x : ℚ) : (mantissa d x).1 < 10 ^ (d + 1) := by
  unfold mantissa
  split
  · positivity
  · next hx =>
    simp only
    split
    · exact Nat.pow_lt_pow_right (by norm_num) (Nat.lt_succ_self d)
    · next hm =>
      refine lt_of_le_of_ne ?_ hm
      have hpos : 0 < |x| := abs_pos.2 hx
      have hlt : |x| < (10 : ℚ) ^ (Int.log 10 |x| + 1) := by
        have := Int.lt_zpow_succ_log_self (b := 10) (by norm_num : 1 < 10) |x|
        exact_mod_cast this
      have h1 : |x| * 10 ^ ((d : Int) - Int.log 10 |x|) ≤ ((10 ^ (d + 1) : ℤ) : ℚ) := by
        have hE : (0 : ℚ) < 10 ^ ((d : Int) - Int.log 10 |x|) := zpow_pos (by norm_num) _
        have h2 := mul_le_mul_of_nonneg_right hlt.le hE.le
        rw [← zpow_add₀ (by norm_num : (10 : ℚ) ≠ 0), show Int.log 10 |x| + 1 + ((d : Int) - Int.log 10 |x|) = ((d + 1 : ℕ) : ℤ) by
          push_cast; ring, zpow_natCast] at h2
        exact_mod_cast h2
      have h3 := roundEven_le _ _ h1
      have h4 := roundEven_nonneg (|x| * 10 ^ ((d : Int) - Int.log 10 |x|)) (by positivity)
      zify
      rw [abs_of_nonneg h4]
      exact_mod_cast h3

theorem showExp_length (c : Char) (d : Nat) (hd : 0 < d) (x : ℚ) : (showExp c d x).length =
    (if x < 0 then 1 else 0) + d + 4 + max 2 (showNat (mantissa d x).2.natAbs).length := by
  unfold showExp
  simp only [List.length_append, List.length_cons]
  have h1 : (showNat ((mantissa d x).1 / 10 ^ d)).length = 1 := by
    have h := showNat_length ((mantissa d x).1 / 10 ^ d) 1 one_pos (by
      rw [Nat.div_lt_iff_lt_mul (by positivity), ← pow_add, add_comm]
      exact mantissa_lt d x)
    have := List.length_pos_of_ne_nil (showNat_ne ((mantissa d x).1 / 10 ^ d))
    omega
  have h2 : (padWith '0' d (showNat ((mantissa d x).1 % 10 ^ d))).length = d :=
    padWith_length _ _ _ (showNat_length _ _ hd (Nat.mod_lt _ (by positivity)))
  have h3 : (padWith '0' 2 (showNat (mantissa d x).2.natAbs)).length = max 2 (showNat (mantissa d x).2.natAbs).length := by
    simp only [padWith, List.length_append, List.length_replicate]
    omega
  rw [h1, h2, h3]
  split <;> simp <;> omega

theorem exponent_bounds (d : Nat) (x : ℚ) (hx : x ≠ 0) : Int.log 10 |x| ≤ (mantissa d x).2 ∧ (mantissa d x).2 ≤ Int.log 10 |x| + 1 := by
  unfold mantissa
  rw [if_neg hx]
  simp only
  split <;> simp

theorem Moderate.free {x : ℚ} (h : Moderate x) : (fExp 0 13 'e' 5 x).Free := by
  refine Or.inr ?_
  show (showExp 'e' 5 x).length < 13
  rw [showExp_length _ _ (by norm_num)]
  have hb : (mantissa 5 x).2.natAbs < 10 ^ 2 := by
    rcases h with rfl | ⟨h1, h2⟩
    · simp [mantissa]
    · have hpos : 0 < |x| := lt_of_lt_of_le (zpow_pos (by norm_num) _) h1
      have hx : x ≠ 0 := abs_pos.1 hpos
      obtain ⟨b1, b2⟩ := exponent_bounds 5 x hx
      have l1 : (-99 : ℤ) ≤ Int.log 10 |x| := (Int.zpow_le_iff_le_log (by norm_num) hpos).1 (by exact_mod_cast h1)
      have l2 : Int.log 10 |x| < 99 := (Int.lt_zpow_iff_log_lt (by norm_num) hpos).1 (by exact_mod_cast h2)
      omega
  have := showNat_length _ 2 (by norm_num) hb
  split <;> omega

theorem tokens_data (size : Nat) (vs : List ℚ) (hv : ∀ v ∈ vs, (fExp 0 13 'e' 5 v).Free) (i : Nat) (pre : List Field)
    (h1 : ∀ f ∈ pre, Solid f.text) (h2 : ∀ f ∈ pre.tail, f.Free) (hi : i + vs.length = size + 1) (hp : vs = [] → pre = []) (r : Str) :
    ∃ L, tokens (fmt pre ++ (dataText size i vs ++ r)) = L ++ tokens r ∧ L.flatten = pre.map Field.text ++ vs.map (showExp 'e' 5) := by
  induction vs generalizing i pre with
  | nil => exact ⟨[], by simp [hp rfl, dataText, fmt]⟩
  | cons v vs ih =>
    have e : fmt pre ++ (dataText size i (v :: vs) ++ r) = fmt (pre ++ [fExp 0 13 'e' 5 v]) ++
        ((if i % 6 = 0 ∨ i = size then ['\n'] else []) ++ (dataText size (i + 1) vs ++ r)) := by
      rw [fmt_append]
      simp [dataText, fmt, fExp]
    have h1' : ∀ f ∈ pre ++ [fExp 0 13 'e' 5 v], Solid f.text := by
      intro f hf
      rcases List.mem_append.1 hf with hf | hf
      · exact h1 f hf
      · rw [List.mem_singleton.1 hf]
        exact fExp_solid _ _ _ (by decide) _ _
    have h2' : ∀ f ∈ (pre ++ [fExp 0 13 'e' 5 v]).tail, f.Free := by
      intro f hf
      cases pre with
      | nil => simp at hf
      | cons g pre =>
        rw [List.cons_append, List.tail_cons] at hf
        rcases List.mem_append.1 hf with hf | hf
        · exact h2 f hf
        · rw [List.mem_singleton.1 hf]
          exact hv v (by simp)
    have hi' : i + 1 + vs.length = size + 1 := by simp at hi; omega
    rw [e]
    split
    · obtain ⟨L, hL1, hL2⟩ := ih (fun w hw => hv w (by simp [hw])) (i + 1) [] (by simp) (by simp) hi' (fun _ => rfl)
      refine ⟨(pre ++ [fExp 0 13 'e' 5 v]).map Field.text :: L, ?_, ?_⟩
      · rw [List.singleton_append, tokens_fmt _ h1' h2', List.cons_append, ← hL1]
        simp [fmt]
      · rw [List.flatten_cons, hL2]
        simp [fExp]
    · next hn =>
      obtain ⟨L, hL1, hL2⟩ := ih (fun w hw => hv w (by simp [hw])) (i + 1) (pre ++ [fExp 0 13 'e' 5 v]) h1' h2' hi' (fun h0 => by
        subst h0
        simp at hi'
        exact absurd (Or.inr hi') hn)
      refine ⟨L, ?_, ?_⟩
      · rw [List.nil_append, hL1]
      · rw [hL2]
        simp [fExp]

theorem readData_lines (size : Nat) (L R : List (List Str)) (V : List ℚ) (hL : L.flatten.mapM readFloat = some V) (acc : List ℚ)
    (hs : acc.length + V.length = size) : readData size (L ++ R) acc = some (acc ++ V) := by
  induction L generalizing acc V with
  | nil =>
    simp at hL
    subst hL
    simp at hs
    cases R <;> simp [readData, hs]
  | cons l L ih =>
    rw [List.flatten_cons, List.mapM_append] at hL
    cases hv : l.mapM readFloat with
    | none => simp [hv] at hL
    | some v =>
      cases hw : L.flatten.mapM readFloat with
      | none => simp [hv, hw] at hL
      | some w =>
        simp [hv, hw] at hL
        subst hL
        rw [List.cons_append, readData]
        split
        · next h =>
          have : v ++ w = [] := List.length_eq_zero_iff.1 (by omega)
          rw [this, List.append_nil]
        · rw [hv, Option.bind_some, if_neg (by simp at hs; omega), ih w hw _ (by simp at hs ⊢; omega), List.append_assoc]

/-! ### Properties -/

/-- Three numbers agree up to half a unit of decimal `d`. -/
def Near (d : Nat) (u v : T3 ℚ) : Prop :=
  |u.1 - v.1| ≤ 1 / 2 / 10 ^ d ∧ |u.2.1 - v.2.1| ≤ 1 / 2 / 10 ^ d ∧ |u.2.2 - v.2.2| ≤ 1 / 2 / 10 ^ d

/-- What is expected of a header that has been written and read: same shape and same symbols, origin up to six, all other numbers up to seven
decimals. -/
structure Head.Agree (h' h : Head) : Prop where
  shape : h'.n = h.n
  origin : Near 6 h'.r0 h.r0
  span : Near 7 h'.a.1 h.a.1 ∧ Near 7 h'.a.2.1 h.a.2.1 ∧ Near 7 h'.a.2.2 h.a.2.2
  atoms : List.Forall₂ (fun p q : Str × T3 ℚ => p.1 = q.1 ∧ Near 7 p.2 q.2) h'.atoms h.atoms

theorem round3_near (d : Nat) (v : T3 ℚ) : Near d (round3 d v) v := ⟨roundTo_near d _, roundTo_near d _, roundTo_near d _⟩

theorem round_agree (h : Head) : h.round.Agree h where
  shape := rfl
  origin := round3_near _ _
  span := ⟨round3_near _ _, round3_near _ _, round3_near _ _⟩
  atoms := by
    show List.Forall₂ _ (h.atoms.map fun p => (p.1, round3 7 p.2)) h.atoms
    rw [List.forall₂_map_left_iff]
    exact List.forall₂_same.2 fun p _ => ⟨rfl, round3_near _ _⟩

/-- C150 (header). The header of a file written by `write_xsf`, be it with data or not, is read as it has been written, up to the rounding of
numbers. -/
theorem C150_header (h : Head) (hs : ∀ p ∈ h.atoms, Solid p.1) (flat : List ℚ) :
    ∃ h', readXsfHead (writeXsfHead h) = some h' ∧ readXsfHead (writeXsf h flat) = some h' ∧ h'.Agree h := by
  refine ⟨h.round, ?_, ?_, round_agree h⟩
  · unfold readXsfHead writeXsfHead
    rw [readHead_text h hs]
    rfl
  · unfold readXsfHead writeXsf
    rw [readHead_text h hs]
    rfl

/-- C150 (numbers). Partial: for numbers with at most two digits in the exponent. The value at grid point `(i, j, k)` that `read_xsf` returns is number
`i + n0 (j + n1 k)` of the data written, up to a relative error of at most `5e-6`. That the numbers are written in another order is the subject of
C14. -/
theorem C150_numbers_partial (h : Head) (hs : ∀ p ∈ h.atoms, Solid p.1) (n0 n1 n2 : Nat) (hn : h.n = ((n0 : Int), (n1 : Int), (n2 : Int)))
    (flat : List ℚ) (hl : flat.length = n0 * n1 * n2) (hm : ∀ v ∈ flat, Moderate v) :
    ∃ h' d, readXsf (writeXsf h flat) = some (h', d) ∧ h'.Agree h ∧ ∀ i j k, i < n0 → j < n1 → k < n2 →
      ∃ x y, flat[i + n0 * (j + n1 * k)]? = some x ∧ d i j k = some y ∧ |y - x| ≤ |x| / 200000 := by
  obtain ⟨L, hL1, hL2⟩ := tokens_data flat.length flat (fun v hv => (hm v hv).free) 1 [] (by simp) (by simp) (by omega) (fun _ => rfl) footText
  have hr : readData (n0 * n1 * n2) (L ++ tokens footText) [] = some (flat.map (roundExp 5)) := by
    rw [readData_lines _ _ _ (flat.map (roundExp 5)) (by
      rw [hL2]
      exact mapM_map _ _ _ _ fun a _ => readFloat_showExp 'e' (by decide) 5 (by norm_num) a) _ (by simp [hl])]
    rfl
  refine ⟨h.round, Misc.xsfGrid n0 n1 (flat.map (roundExp 5)), ?_, round_agree h, fun i j k hi hj hk => ?_⟩
  · unfold readXsf writeXsf
    rw [readHead_text h hs, Option.bind_some]
    have e : tokens (dataText flat.length 1 flat ++ footText) = L ++ tokens footText := by simpa [fmt] using hL1
    have hn' : h.round.n = ((n0 : Int), (n1 : Int), (n2 : Int)) := hn
    simp only [hn', e, Int.toNat_natCast]
    rw [if_neg (by omega), hr, Option.map_some]
  · have hlt : i + n0 * (j + n1 * k) < flat.length := by
      rw [hl]
      have h1 : j + n1 * k + 1 ≤ n1 * n2 := by
        calc j + n1 * k + 1 ≤ n1 * k + n1 := by omega
          _ = n1 * (k + 1) := by ring
          _ ≤ n1 * n2 := Nat.mul_le_mul_left _ hk
      calc i + n0 * (j + n1 * k) < n0 * (j + n1 * k) + n0 := by omega
        _ = n0 * (j + n1 * k + 1) := by ring
        _ ≤ n0 * (n1 * n2) := Nat.mul_le_mul_left _ h1
        _ = n0 * n1 * n2 := by ring
    refine ⟨flat[i + n0 * (j + n1 * k)], roundExp 5 flat[i + n0 * (j + n1 * k)], List.getElem?_eq_getElem hlt, ?_, ?_⟩
    · unfold Misc.xsfGrid
      rw [show (k * n1 + j) * n0 + i = i + n0 * (j + n1 * k) by ring, List.getElem?_map, List.getElem?_eq_getElem hlt, Option.map_some]
    · have := roundExp_near 5 flat[i + n0 * (j + n1 * k)]
      calc _ ≤ _ := this
        _ = _ := by norm_num; ring

example : readXsfHead (writeXsfHead ⟨(-1, 0, 1 / 3), ((4, 0, 0), (0, 4, 0), (-1 / 2, 0, 1000000)), [("Ta".toList, (0, 0, 0)), ("16".toList, (1, 2 / 3, 3))],
    (2, 3, 4)⟩) = some ⟨(-1, 0, 333333 / 1000000), ((4, 0, 0), (0, 4, 0), (-1 / 2, 0, 1000000)), [("Ta".toList, (0, 0, 0)),
    ("16".toList, (1, 6666667 / 10000000, 3))], (2, 3, 4)⟩ := by decide +kernel

example : Moderate (-1 / 8) := Or.inr ⟨by norm_num, by norm_num⟩

/-- At least three digits. -/
theorem showNat_length_ge (n : Nat) (h : 100 ≤ n) : 3 ≤ (showNat n).length := by
  by_contra hc
  have hr := readDigits_showNat n
  have hb : ∀ (s : Str) (acc m : Nat), readDigits acc s = some m → m < (acc + 1) * 10 ^ s.length := by
    intro s
    induction s with
    | nil =>
      intro acc m hm
      simp [readDigits] at hm
      simp
      omega
    | cons c s ih =>
      intro acc m hm
      rw [readDigits] at hm
      cases hd : digitVal c with
      | none => simp [hd] at hm
      | some d =>
        rw [hd] at hm
        have h9 : d ≤ 9 := by
          unfold digitVal at hd
          split at hd
          · simp at hd
            omega
          · simp at hd
        have := ih _ _ hm
        rw [List.length_cons, pow_succ]
        calc m < (acc * 10 + d + 1) * 10 ^ s.length := this
          _ ≤ ((acc + 1) * 10) * 10 ^ s.length := Nat.mul_le_mul_right _ (by omega)
          _ = _ := by ring
  have := hb _ _ _ hr
  have h2 : (10 : ℕ) ^ (showNat n).length ≤ 10 ^ 2 := Nat.pow_le_pow_right (by norm_num) (by omega)
  omega

/-- C150 (large exponents). Violated in general: no file with two numbers the second of which is negative with three digits in the exponent, be it huge
or tiny, can be read, as the number is not separated from the previous one. -/
theorem C150_exponent_violated (h : Head) (hs : ∀ p ∈ h.atoms, Solid p.1) (hn : h.n = (2, 1, 1)) (y x : ℚ) (hx : x < 0)
    (hl : |x| < 10 ^ (-101 : ℤ) ∨ 10 ^ (100 : ℤ) ≤ |x|) : readXsf (writeXsf h [y, x]) = none := by
  have hlen : 13 ≤ (showExp 'e' 5 x).length := by
    have hpos : 0 < |x| := abs_pos.2 hx.ne
    obtain ⟨b1, b2⟩ := exponent_bounds 5 x hx.ne
    have hb : 100 ≤ (mantissa 5 x).2.natAbs := by
      rcases hl with hl | hl
      · have : Int.log 10 |x| < -101 := (Int.lt_zpow_iff_log_lt (by norm_num) hpos).1 (by exact_mod_cast hl)
        omega
      · have : (100 : ℤ) ≤ Int.log 10 |x| := (Int.zpow_le_iff_le_log (by norm_num) hpos).1 (by exact_mod_cast hl)
        omega
    have := showNat_length_ge _ hb
    rw [showExp_length _ _ (by norm_num), if_pos hx]
    omega
  have e : dataText [y, x].length 1 [y, x] ++ footText =
      fmt [⟨0, 13 + (showExp 'e' 5 x).length, showExp 'e' 5 y ++ showExp 'e' 5 x⟩] ++ '\n' :: footText := by
    have h0 : 13 - (showExp 'e' 5 x).length = 0 := by omega
    have h1 : 13 + (showExp 'e' 5 x).length - ((showExp 'e' 5 y).length + (showExp 'e' 5 x).length) = 13 - (showExp 'e' 5 y).length := by omega
    simp [dataText, fmt, padLeft, padWith, h0, h1]
  have hy := showExp_solid 'e' (by decide) 5 y
  have hx' := showExp_solid 'e' (by decide) 5 x
  have k5 : footText = ("END_DATAGRID_3D".toList ++ ['\n']) ++ "END_BLOCK_DATAGRID_3D\n".toList := by decide
  have hf : readFloat "END_DATAGRID_3D".toList = none := by decide +kernel
  have s5 : Solid "END_DATAGRID_3D".toList := ⟨by decide, by decide⟩
  have ht : ∃ w r, tokens (dataText [y, x].length 1 [y, x] ++ footText) = [w] :: ["END_DATAGRID_3D".toList] :: r := by
    refine ⟨showExp 'e' 5 y ++ showExp 'e' 5 x, tokens "END_BLOCK_DATAGRID_3D\n".toList, ?_⟩
    rw [e, tokens_fmt _ (by
      intro f hf
      rw [List.mem_singleton.1 hf]
      refine ⟨by simp [hy.1], fun c hc => ?_⟩
      rcases List.mem_append.1 hc with hc | hc
      · exact hy.2 c hc
      · exact hx'.2 c hc) (by simp), k5, tokens_key _ s5]
    rfl
  obtain ⟨w, r, ht⟩ := ht
  unfold readXsf writeXsf
  rw [readHead_text h hs, Option.bind_some, ht]
  have hn' : h.round.n = (2, 1, 1) := hn
  simp only [hn']
  generalize "END_DATAGRID_3D".toList = k at *
  rw [if_neg (by decide), show (Int.toNat 2) * (Int.toNat 1) * (Int.toNat 1) = 2 from rfl, readData, if_neg (by simp)]
  cases hw : readFloat w with
  | none => simp [hw]
  | some v => simp [hw, readData, hf]

example : (-(10 : ℚ) ^ (-120 : ℤ)) < 0 ∧ |(-(10 : ℚ) ^ (-120 : ℤ))| < 10 ^ (-101 : ℤ) := by
  constructor
  · norm_num
  · rw [abs_neg, abs_of_pos (by positivity)]
    exact zpow_lt_zpow_right₀ (by norm_num) (by norm_num)

end Verif.Xsf
