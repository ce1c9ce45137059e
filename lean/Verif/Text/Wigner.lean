import Verif.Text.HrDat
import Mathlib.Data.Complex.BigOperators
import Mathlib.Analysis.SpecialFunctions.Sqrt
import Mathlib.Tactic.IntervalCases

/-!
# Files of the electron-phonon coupling: `.wigner` and `.epmatwp` (C49)

Binary files of complex numbers are lists of complex numbers, exceptions are `none`.
-/

namespace Verif.Text

open Verif.Lattice (V3)

/-! ### `.wigner` files -/

/-- Lattice vector and degeneracies (list of lines). -/
abbrev WignerEntry := V3 × List (List Int)

/-- `'%6d %5d %5d'`, `elphmod/elph.py` 790 and 797. -/
def vecFields (R : V3) : List Field := [fInt 0 6 R.1, fInt 1 5 R.2.1, fInt 1 5 R.2.2]

/-- `' '.join('%d' % d for d in l)` -/
def joinFields : List Int → List Field
  | [] => []
  | d :: l => fInt 0 0 d :: l.map (fInt 1 0)

/-- `elphmod/elph.py` 789-801: one lattice vector. -/
def wignerText (e : WignerEntry) : Str :=
  fmt (vecFields e.1) ++ '\n' :: e.2.flatMap fun l => fmt (joinFields l) ++ ['\n']

/-- `elphmod/elph.py` 776-801 (in `to_epmatwp`). -/
def writeWigner (dims dims2 : Nat) (K G : List WignerEntry) : Str :=
  fmt [fInt 0 0 K.length, ⟨1, 0, ['0']⟩, fInt 1 0 G.length, fInt 1 0 dims, fInt 1 0 dims2] ++ '\n' ::
    (K.flatMap wignerText ++ G.flatMap wignerText)

/-- `elphmod/bravais.py` 1188-1189 (`integers`). -/
def integers (n : Option Nat) : List (List Str) → Option (List Int × List (List Str))
  | [] => none
  | l :: r => ((match n with
    | some n => l.take n
    | none => l).mapM readInt).map fun z => (z, r)

/-- Assignment of a list to an array of `n` elements. -/
def assignRow (n : Nat) (l : List Int) : Option (List Int) :=
  if l.length = n then some l
  else match l with
    | [d] => some (List.replicate n d)
    | _ => none

/-- `elphmod/bravais.py` 1204-1205, 1210-1211, 1216-1217: degeneracies of one lattice vector, `m` lines of `n` numbers. -/
def readRows (n : Nat) : Nat → List (List Str) → Option (List (List Int) × List (List Str))
  | 0, r => some ([], r)
  | m + 1, r => do
    let (z, r) ← integers none r
    let row ← assignRow n z
    let (rows, r) ← readRows n m r
    return (row :: rows, r)

/-- `elphmod/bravais.py` 1201-1217: one kind of lattice vectors. -/
def readEntries (m n : Nat) : Nat → List (List Str) → Option (List WignerEntry × List (List Str))
  | 0, r => some ([], r)
  | c + 1, r => do
    let (z, r) ← integers (some 3) r
    let v ← assignRow 3 z
    let (rows, r) ← readRows n m r
    let (es, r) ← readEntries m n c r
    return (((v.getD 0 0, v.getD 1 0, v.getD 2 0), rows) :: es, r)

/-- Number of array elements, negative ones are not allowed. -/
def asSize (z : Int) : Option Nat := if z < 0 then none else some z.toNat

/-- `elphmod/bravais.py` 1109-1226 (`read_wigner_file`) for files in text format: `dims`, `dims2`, and both kinds of lattice
vectors. The binary format is not modelled (`none`). -/
def readWigner (text : Str) : Option (Nat × Nat × List WignerEntry × List WignerEntry) := do
  if '\x00' ∈ text then none
  else
    let (z, r) ← integers none (tokens text)
    match z with
      | [nk, nq, ng, dims, dims2] =>
        let nk ← asSize nk
        let nq ← asSize nq
        let ng ← asSize ng
        let dims ← asSize dims
        let dims2 ← asSize dims2
        let (K, r) ← readEntries dims dims nk r
        let (_, r) ← readEntries dims2 dims2 nq r
        let (G, _) ← readEntries dims dims2 ng r
        return (dims, dims2, K, G)
      | _ => none

/-! ### Round trip of `.wigner` files -/

theorem vecFields_solid (R : V3) : ∀ f ∈ vecFields R, Solid f.text := by
  intro f hf
  simp only [vecFields, List.mem_cons, List.not_mem_nil, or_false] at hf
  rcases hf with rfl | rfl | rfl <;> exact showInt_solid _

theorem joinFields_solid (l : List Int) : ∀ f ∈ joinFields l, Solid f.text := by
  intro f hf
  cases l with
  | nil => simp [joinFields] at hf
  | cons d l =>
    simp only [joinFields, List.mem_cons, List.mem_map] at hf
    rcases hf with rfl | ⟨d, -, rfl⟩ <;> exact showInt_solid _

theorem joinFields_text (l : List Int) : (joinFields l).map Field.text = l.map showInt := by
  cases l with
  | nil => rfl
  | cons d l =>
    simp only [joinFields, List.map_cons, List.map_map]
    rfl

theorem wignerText_tokens (e : WignerEntry) (r : Str) : tokens (wignerText e ++ r) =
    ([showInt e.1.1, showInt e.1.2.1, showInt e.1.2.2] :: e.2.map fun l => l.map showInt) ++ tokens r := by
  unfold wignerText
  rw [List.append_assoc, List.cons_append, tokens_fmt _ (vecFields_solid _) (by
    intro f hf
    simp only [vecFields, List.tail_cons, List.mem_cons, List.not_mem_nil, or_false] at hf
    rcases hf with rfl | rfl <;> exact Or.inl Nat.one_pos),
    tokens_flatMap e.2 _ (fun l => [l.map showInt])]
  · simp only [vecFields, List.map_cons, List.map_nil, fInt, List.flatMap_singleton, List.cons_append]
    congr 2
    induction e.2 with
    | nil => rfl
    | cons a l ih => simp [ih]
  · intro l _ r
    rw [List.append_assoc, List.singleton_append, tokens_fmt _ (joinFields_solid l) (by
      intro f hf
      cases l with
      | nil => simp [joinFields] at hf
      | cons d l =>
        simp only [joinFields, List.tail_cons, List.mem_map] at hf
        obtain ⟨d, -, rfl⟩ := hf
        exact Or.inl Nat.one_pos), joinFields_text]
    rfl

theorem mapM_showInt (l : List Int) : (l.map showInt).mapM readInt = some l := by
  have := mapM_map showInt readInt id l fun a _ => readInt_showInt a
  simpa using this

theorem assignRow_eq (n : Nat) (l : List Int) (h : l.length = n) : assignRow n l = some l := by
  unfold assignRow
  exact if_pos h

theorem readRows_lines (n : Nat) (rows : List (List Int)) (h : ∀ l ∈ rows, l.length = n) (r : List (List Str)) :
    readRows n rows.length ((rows.map fun l => l.map showInt) ++ r) = some (rows, r) := by
  induction rows with
  | nil => rfl
  | cons l rows ih =>
    rw [List.length_cons, readRows, List.map_cons, List.cons_append]
    simp only [integers, mapM_showInt, Option.map_some, Option.bind_eq_bind, Option.bind_some]
    rw [assignRow_eq n l (h l (by simp))]
    simp only [Option.bind_some]
    rw [ih fun l hl => h l (by simp [hl])]
    rfl

theorem readEntries_lines (m n : Nat) (es : List WignerEntry) (h : ∀ e ∈ es, e.2.length = m ∧ ∀ l ∈ e.2, l.length = n)
    (r : List (List Str)) : readEntries m n es.length ((es.flatMap fun e =>
      [showInt e.1.1, showInt e.1.2.1, showInt e.1.2.2] :: e.2.map fun l => l.map showInt) ++ r) = some (es, r) := by
  induction es with
  | nil => rfl
  | cons e es ih =>
    obtain ⟨h1, h2⟩ := h e (by simp)
    rw [List.length_cons, readEntries, List.flatMap_cons, List.append_assoc, List.cons_append]
    have h3 : ([showInt e.1.1, showInt e.1.2.1, showInt e.1.2.2].take 3).mapM readInt = some [e.1.1, e.1.2.1, e.1.2.2] :=
      mapM_showInt [e.1.1, e.1.2.1, e.1.2.2]
    simp only [integers, h3, Option.map_some, Option.bind_eq_bind, Option.bind_some]
    rw [assignRow_eq 3 _ (by simp)]
    simp only [Option.bind_some]
    rw [← h1, readRows_lines n e.2 h2]
    simp only [Option.bind_some]
    rw [h1, ih fun e he => h e (by simp [he])]
    rfl

theorem showInt_chars (z : Int) : '\x00' ∉ showInt z := by
  have hd : ∀ s, Digits s → '\x00' ∉ s := by
    intro s hs h
    obtain ⟨d, hd, e⟩ := hs _ h
    interval_cases d <;> exact absurd e (by decide)
  unfold showInt
  split
  · rw [List.mem_cons, not_or]
    exact ⟨by decide, hd _ (showNat_digits _)⟩
  · exact hd _ (showNat_digits _)

theorem fInt_chars (sp w : Nat) (z : Int) : '\x00' ∉ (fInt sp w z).text := showInt_chars z

theorem fmt_chars (l : List Field) (h : ∀ f ∈ l, '\x00' ∉ f.text) : '\x00' ∉ fmt l := by
  unfold fmt padLeft padWith
  simp only [List.mem_flatMap, List.mem_append, List.mem_replicate, not_exists, not_and]
  rintro f hf (h' | h' | h')
  · exact absurd h'.2 (by decide)
  · exact absurd h'.2 (by decide)
  · exact h f hf h'

theorem wignerText_chars (e : WignerEntry) : '\x00' ∉ wignerText e := by
  unfold wignerText
  simp only [List.mem_append, List.mem_cons, List.mem_flatMap, List.not_mem_nil, or_false, not_or, not_exists, not_and]
  refine ⟨fmt_chars _ ?_, by decide, fun l _ => ⟨fmt_chars _ ?_, by decide⟩⟩
  · intro f hf
    simp only [vecFields, List.mem_cons, List.not_mem_nil, or_false] at hf
    rcases hf with rfl | rfl | rfl <;> exact showInt_chars _
  · intro f hf
    cases l with
    | nil => simp [joinFields] at hf
    | cons d l =>
      simp only [joinFields, List.mem_cons, List.mem_map] at hf
      rcases hf with rfl | ⟨d, -, rfl⟩ <;> exact showInt_chars _

/-- Reading a written `.wigner` file returns what has been written, for numbers of any size. -/
theorem readWigner_writeWigner (dims dims2 : Nat) (K G : List WignerEntry)
    (hK : ∀ e ∈ K, e.2.length = dims ∧ ∀ l ∈ e.2, l.length = dims)
    (hG : ∀ e ∈ G, e.2.length = dims ∧ ∀ l ∈ e.2, l.length = dims2) :
    readWigner (writeWigner dims dims2 K G) = some (dims, dims2, K, G) := by
  have h0 : '\x00' ∉ writeWigner dims dims2 K G := by
    unfold writeWigner
    simp only [List.mem_append, List.mem_cons, List.mem_flatMap, not_or, not_exists, not_and]
    refine ⟨fmt_chars _ ?_, by decide, fun e _ => wignerText_chars e, fun e _ => wignerText_chars e⟩
    intro f hf
    simp only [List.mem_cons, List.not_mem_nil, or_false] at hf
    rcases hf with rfl | rfl | rfl | rfl | rfl
    · exact fInt_chars _ _ _
    · decide
    · exact fInt_chars _ _ _
    · exact fInt_chars _ _ _
    · exact fInt_chars _ _ _
  have ht : tokens (writeWigner dims dims2 K G) =
      [showInt K.length, showInt 0, showInt G.length, showInt dims, showInt dims2] ::
        ((K.flatMap fun e => [showInt e.1.1, showInt e.1.2.1, showInt e.1.2.2] :: e.2.map fun l => l.map showInt) ++
        ((G.flatMap fun e => [showInt e.1.1, showInt e.1.2.1, showInt e.1.2.2] :: e.2.map fun l => l.map showInt) ++ [])) := by
    unfold writeWigner
    rw [tokens_fmt]
    · rw [tokens_flatMap K wignerText _ (fun e _ r => wignerText_tokens e r)]
      have := tokens_flatMap G wignerText _ (fun e _ r => wignerText_tokens e r) []
      rw [List.append_nil] at this
      rw [this]
      rfl
    · intro f hf
      simp only [List.mem_cons, List.not_mem_nil, or_false] at hf
      rcases hf with rfl | rfl | rfl | rfl | rfl
      · exact fInt_solid _ _ _
      · exact ⟨by decide, by decide⟩
      · exact fInt_solid _ _ _
      · exact fInt_solid _ _ _
      · exact fInt_solid _ _ _
    · intro f hf
      simp only [List.tail_cons, List.mem_cons, List.not_mem_nil, or_false] at hf
      rcases hf with rfl | rfl | rfl | rfl <;> exact Or.inl Nat.one_pos
  have hs : ∀ n : Nat, asSize (n : Int) = some n := fun n => by
    unfold asSize
    rw [if_neg (by omega), Int.toNat_natCast]
  have hz : asSize 0 = some 0 := hs 0
  have hm : [showInt K.length, showInt 0, showInt G.length, showInt dims, showInt dims2].mapM readInt =
      some [(K.length : Int), 0, (G.length : Int), (dims : Int), (dims2 : Int)] :=
    mapM_showInt [(K.length : Int), 0, (G.length : Int), (dims : Int), (dims2 : Int)]
  unfold readWigner
  rw [if_neg h0, ht]
  simp only [integers, hm, Option.map_some, Option.bind_eq_bind, Option.bind_some, hs, hz]
  rw [readEntries_lines dims dims K hK]
  simp only [Option.bind_some, readEntries]
  rw [readEntries_lines dims dims2 G hG]
  rfl

end Verif.Text
