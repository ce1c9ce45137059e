import Verif.AtomicProj.Model
import Verif.Xml.Read
import Mathlib.Data.List.Flatten

/-!
# Atomic projections: what the files look like and what is read (C139)
-/

namespace Verif.AtomicProj

open Verif.Text Verif.Xml

/-! ### Header -/

/-- An attribute of an XML element. -/
def attr (kv : Str × Str) : Str := kv.1 ++ '=' :: ('"' :: (kv.2 ++ ['"']))

/-- Attributes separated by single spaces. -/
def attrs : List (Str × Str) → Str
  | [] => []
  | [kv] => attr kv
  | kv :: l => attr kv ++ ' ' :: attrs l

/-- Attributes in the header: no space, equals sign or quote within keys and values. -/
def Clean (l : List (Str × Str)) : Prop := ∀ kv ∈ l, ' ' ∉ kv.1 ∧ '=' ∉ kv.1 ∧ ' ' ∉ kv.2 ∧ '=' ∉ kv.2 ∧ '"' ∉ kv.2

theorem dropWhile_all {α : Type} (p : α → Bool) (a s : List α) (h : ∀ c ∈ a, p c = true) : (a ++ s).dropWhile p = s.dropWhile p := by
  induction a with
  | nil => rfl
  | cons x a ih =>
    rw [List.cons_append, List.dropWhile_cons_of_pos (h x (by simp))]
    exact ih fun c hc => h c (by simp [hc])

theorem dropWhile_head {α : Type} (p : α → Bool) (s : List α) (h : ∀ c, s.head? = some c → p c = false) : s.dropWhile p = s := by
  cases s with
  | nil => rfl
  | cons x s => rw [List.dropWhile_cons_of_neg (by simp [h x rfl])]

theorem stripSet_mid (C a m b : Str) (ha : ∀ c ∈ a, c ∈ C) (hb : ∀ c ∈ b, c ∈ C) (h1 : ∀ c, m.head? = some c → c ∉ C)
    (h2 : ∀ c, m.getLast? = some c → c ∉ C) : stripSet C (a ++ (m ++ b)) = m := by
  unfold stripSet
  rw [dropWhile_all _ _ _ (by simpa using ha)]
  cases m with
  | nil =>
    rw [List.nil_append]
    have : b.dropWhile (· ∈ C) = [] := by
      have := dropWhile_all (fun c => decide (c ∈ C)) b [] (by simpa using hb)
      simpa using this
    rw [this]
    rfl
  | cons x m =>
    rw [dropWhile_head _ (x :: m ++ b) (by
      intro c hc
      simp only [List.cons_append, List.head?_cons, Option.some.injEq] at hc
      subst hc
      simpa using h1 x rfl)]
    rw [List.reverse_append, dropWhile_all _ _ _ (by simpa using hb), dropWhile_head, List.reverse_reverse]
    intro c hc
    rw [List.head?_reverse] at hc
    simpa using h2 c hc

theorem splitOn_append (c : Char) (s t acc : Str) (h : c ∉ s) : splitOn c acc (s ++ c :: t) = (acc ++ s) :: splitOn c [] t := by
  induction s generalizing acc with
  | nil => simp [splitOn]
  | cons x s ih =>
    simp only [List.mem_cons, not_or] at h
    rw [List.cons_append, splitOn, if_neg (Ne.symm h.1), ih _ h.2]
    simp

theorem attr_no_space (kv : Str × Str) (h : ' ' ∉ kv.1 ∧ ' ' ∉ kv.2) : ' ' ∉ attr kv := by
  simp [attr, h.1, h.2]

theorem splitOn_attrs (l : List (Str × Str)) (hl : l ≠ []) (h : Clean l) : splitOn ' ' [] (attrs l) = l.map attr := by
  induction l with
  | nil => exact absurd rfl hl
  | cons kv l ih =>
    have h0 := h kv (by simp)
    cases l with
    | nil =>
      rw [attrs, splitOn_none _ _ _ (attr_no_space kv ⟨h0.1, h0.2.2.1⟩)]
      rfl
    | cons kv' l =>
      rw [attrs, splitOn_append _ _ _ _ (attr_no_space kv ⟨h0.1, h0.2.2.1⟩), ih (by simp) fun x hx => h x (by simp [hx])]
      · rfl
      · simp

theorem attrs_last (l : List (Str × Str)) (hl : l ≠ []) : (attrs l).getLast? = some '"' := by
  induction l with
  | nil => exact absurd rfl hl
  | cons kv l ih =>
    cases l with
    | nil =>
      have : attrs [kv] = (kv.1 ++ '=' :: '"' :: kv.2) ++ ['"'] := by simp [attrs, attr]
      rw [this, List.getLast?_concat]
    | cons kv' l =>
      rw [attrs, List.getLast?_append, List.getLast?_cons, ih (by simp)]
      · rfl
      · simp

theorem attrs_head (l : List (Str × Str)) (x : Char) (k v : Str) (r : List (Str × Str)) (hl : l = (x :: k, v) :: r) :
    (attrs l).head? = some x := by
  subst hl
  cases r <;> rfl

theorem item_split (kv : Str × Str) (h : '=' ∉ kv.1 ∧ '=' ∉ kv.2) : splitOn '=' [] (attr kv) = [kv.1, '"' :: (kv.2 ++ ['"'])] := by
  unfold attr
  rw [splitOn_one _ _ _ _ h.1 (by simp [h.2])]
  rfl

theorem value_strip (v : Str) (h : '"' ∉ v) : stripSet ['"'] ('"' :: (v ++ ['"'])) = v := by
  have key : ∀ c ∈ v, c ∉ (['"'] : Str) := fun c hc e => h (by simpa using (List.mem_singleton.1 e) ▸ hc)
  exact stripSet_mid ['"'] ['"'] v ['"'] (by simp) (by simp) (fun c hc => key c (List.mem_of_mem_head? hc))
    fun c hc => key c (List.mem_of_mem_getLast? hc)

theorem mapM_items (l : List (Str × Str)) (h : Clean l) : (l.map attr).mapM itemOf = some l := by
  induction l with
  | nil => rfl
  | cons kv l ih =>
    have h0 := h kv (by simp)
    rw [List.map_cons, List.mapM_cons, ih fun x hx => h x (by simp [hx]), itemOf, item_split kv ⟨h0.2.1, h0.2.2.2.1⟩]
    simp [value_strip kv.2 h0.2.2.2.2]

/-- The header is read correctly for any attributes in any order, as long as the name of the first one does not begin with a slash or one of the
letters A, D, E, H, R. -/
theorem header_eq (a b : Str) (l : List (Str × Str)) (x : Char) (k v : Str) (r : List (Str × Str)) (hl : l = (x :: k, v) :: r) (h : Clean l)
    (ha : ∀ c ∈ a, c ∈ "<HEADER />\n".toList) (hb : ∀ c ∈ b, c ∈ "<HEADER />\n".toList) (hx : x ∉ "<HEADER />\n".toList) :
    header (a ++ (attrs l ++ b)) = some l.reverse := by
  have hne : l ≠ [] := by simp [hl]
  unfold header
  rw [stripSet_mid _ a (attrs l) b ha hb (fun c hc => by
    rw [attrs_head l x k v r hl] at hc
    cases hc
    exact hx) (fun c hc => by
    rw [attrs_last l hne] at hc
    cases hc
    decide), splitOn_attrs l hne h, mapM_items l h]
  rfl

theorem lookup_mem (l : List (Str × Str)) (k v : Str) (h : (k, v) ∈ l) (hn : (l.map (·.1)).Nodup) : l.lookup k = some v := by
  induction l with
  | nil => simp at h
  | cons kv l ih =>
    obtain ⟨k', v'⟩ := kv
    rw [List.map_cons, List.nodup_cons] at hn
    rcases List.mem_cons.1 h with h | h
    · cases h
      rw [List.lookup_cons_self]
    · have : k ≠ k' := fun e => hn.1 (List.mem_map.2 ⟨(k, v), h, e⟩)
      have hk : (k == k') = false := by simpa using this
      rw [List.lookup_cons, hk]
      exact ih h hn.2

theorem lookup_reverse (l : List (Str × Str)) (k v : Str) (h : (k, v) ∈ l) (hn : (l.map (·.1)).Nodup) : l.reverse.lookup k = some v :=
  lookup_mem _ _ _ (List.mem_reverse.2 h) (by rw [List.map_reverse]; exact List.nodup_reverse.2 hn)

theorem size_eq (l : List (Str × Str)) (key : String) (n : Nat) (h : (key.toList, showInt n) ∈ l) (hn : (l.map (·.1)).Nodup) :
    size l.reverse key = some n := by
  unfold size
  rw [lookup_reverse l _ _ h hn]
  simp [intOf_showInt]

/-! ### k points -/

/-- Lines for a k point. -/
structure Block where
  tag1 : Str
  kLine : Str
  tag2 : Str
  tag3 : Str
  eLines : List Str
  tag4 : Str
  tag5 : Str
  wfc : List (Str × List Str × Str)
  tag6 : Str

/-- Lines for an orbital. -/
def wfcLines (w : Str × List Str × Str) : List Str := w.1 :: (w.2.1 ++ [w.2.2])

/-- All lines for a k point. -/
def Block.lines (b : Block) : List Str :=
  b.tag1 :: b.kLine :: b.tag2 :: b.tag3 :: (b.eLines ++ b.tag4 :: b.tag5 :: (b.wfc.flatMap wfcLines ++ [b.tag6]))

/-- The numbers in the lines are those of the point; energies may be spread over any number of nonempty lines. -/
def Block.Describes (b : Block) (bands no : Nat) (p : Point) : Prop :=
  nums b.kLine = some [p.k.1, p.k.2.1, p.k.2.2] ∧
  (∃ parts : List (List ℚ), b.eLines.map nums = parts.map some ∧ (∀ l ∈ parts, l ≠ []) ∧ parts.flatten = p.eps) ∧
  p.eps.length = bands ∧
  b.wfc.map (fun w => w.2.1.map nums) = p.proj.map (fun c => c.map fun z => some [z.1, z.2]) ∧
  p.proj.length = no ∧ ∀ c ∈ p.proj, c.length = bands

theorem readLevels_eq (bands : Nat) (ls : List Str) (parts : List (List ℚ)) (acc : List ℚ) (r : List Str)
    (h : ls.map nums = parts.map some) (hp : ∀ l ∈ parts, l ≠ []) (hb : acc.length + parts.flatten.length = bands) :
    readLevels bands (ls ++ r) acc = some (acc ++ parts.flatten, r) := by
  induction ls generalizing parts acc with
  | nil =>
    cases parts with
    | cons p ps => simp at h
    | nil =>
      have : ¬ acc.length < bands := by simp at hb; omega
      cases r <;> simp [readLevels, this]
  | cons l ls ih =>
    cases parts with
    | nil => simp at h
    | cons p ps =>
      simp only [List.map_cons, List.cons.injEq] at h
      have hp0 : 0 < p.length := List.length_pos_of_ne_nil (hp p (by simp))
      rw [List.flatten_cons, List.length_append] at hb
      rw [List.cons_append, readLevels, if_pos (by omega), h.1]
      have := ih ps (acc ++ p) h.2 (fun l hl => hp l (by simp [hl])) (by rw [List.length_append]; omega)
      simpa using this

theorem readComplex_eq (ls : List Str) (c : List (ℚ × ℚ)) (r : List Str) (h : ls.map nums = c.map fun z => some [z.1, z.2]) :
    readComplex c.length (ls ++ r) = some (c, r) := by
  induction ls generalizing c with
  | nil =>
    cases c with
    | nil => rfl
    | cons z c => simp at h
  | cons l ls ih =>
    cases c with
    | nil => simp at h
    | cons z c =>
      simp only [List.map_cons, List.cons.injEq] at h
      rw [List.cons_append, List.length_cons, readComplex, h.1]
      simp [ih c h.2]

theorem readWfc_eq (bands : Nat) (ws : List (Str × List Str × Str)) (cs : List (List (ℚ × ℚ))) (r : List Str)
    (h : ws.map (fun w => w.2.1.map nums) = cs.map (fun c => c.map fun z => some [z.1, z.2])) (hc : ∀ c ∈ cs, c.length = bands) :
    readWfc bands cs.length (ws.flatMap wfcLines ++ r) = some (cs, r) := by
  induction ws generalizing cs with
  | nil =>
    cases cs with
    | nil => rfl
    | cons c cs => simp at h
  | cons w ws ih =>
    cases cs with
    | nil => simp at h
    | cons c cs =>
      simp only [List.map_cons, List.cons.injEq] at h
      have h1 := readComplex_eq w.2.1 c (w.2.2 :: (ws.flatMap wfcLines ++ r)) h.1
      rw [hc c (by simp)] at h1
      have h2 := ih cs h.2 fun c hc' => hc c (by simp [hc'])
      rw [List.flatMap_cons, List.length_cons, readWfc]
      simp only [wfcLines, List.cons_append, List.append_assoc, skip, Option.bind_eq_bind, Option.bind_some, List.nil_append]
      rw [h1]
      simp only [Option.bind_some, skip]
      rw [h2]
      rfl

theorem readPoint_eq (bands no : Nat) (b : Block) (p : Point) (r : List Str) (h : b.Describes bands no p) :
    readPoint bands no (b.lines ++ r) = some (p, r) := by
  obtain ⟨hk, ⟨parts, h1, h2, h3⟩, he, hw, hno, hc⟩ := h
  have e1 := readLevels_eq bands b.eLines parts [] (b.tag4 :: b.tag5 :: (b.wfc.flatMap wfcLines ++ b.tag6 :: r)) h1 h2
    (by rw [h3, he]; simp)
  have e2 := readWfc_eq bands b.wfc p.proj (b.tag6 :: r) hw hc
  rw [hno] at e2
  rw [h3, List.nil_append] at e1
  unfold readPoint Block.lines
  simp only [List.cons_append, List.append_assoc, skip, Option.bind_eq_bind, Option.bind_some, List.nil_append, hk, row3]
  rw [e1]
  simp only [Option.bind_some, he, ne_eq, not_true_eq_false, if_false, pure]
  rw [e2]
  rfl

theorem readPoints_eq (bands no : Nat) (bs : List Block) (ps : List Point) (r : List Str)
    (h : List.Forall₂ (fun b p => Block.Describes b bands no p) bs ps) :
    readPoints bands no ps.length (bs.flatMap Block.lines ++ r) = some ps := by
  induction h with
  | nil => rfl
  | @cons b p bs ps h _ ih =>
    rw [List.flatMap_cons, List.append_assoc, List.length_cons, readPoints, readPoint_eq bands no b p _ h]
    simp [ih]

/-- A file in the new format. -/
structure File where
  first : Str
  before : Str
  attributes : List (Str × Str)
  after : Str
  third : Str
  blocks : List Block
  rest : List Str

/-- All lines of the file. -/
def File.lines (f : File) : List Str :=
  f.first :: (f.before ++ (attrs f.attributes ++ f.after)) :: f.third :: (f.blocks.flatMap Block.lines ++ f.rest)

/-- The file contains the given data. -/
def File.Describes (f : File) (bands no : Nat) (mu : ℚ) (ps : List Point) : Prop :=
  (∀ c ∈ f.before, c ∈ "<HEADER />\n".toList) ∧ (∀ c ∈ f.after, c ∈ "<HEADER />\n".toList) ∧ Clean f.attributes ∧
  (f.attributes.map (·.1)).Nodup ∧
  (∃ x k v r, f.attributes = (x :: k, v) :: r ∧ x ∉ "<HEADER />\n".toList) ∧
  ("NUMBER_OF_BANDS".toList, showInt bands) ∈ f.attributes ∧
  ("NUMBER_OF_K-POINTS".toList, showInt ps.length) ∈ f.attributes ∧
  ("NUMBER_OF_ATOMIC_WFC".toList, showInt no) ∈ f.attributes ∧
  (∃ v, ("FERMI_ENERGY".toList, v) ∈ f.attributes ∧ floatOf v = some mu) ∧
  List.Forall₂ (fun b p => Block.Describes b bands no p) f.blocks ps

theorem readNew_eq (f : File) (bands no : Nat) (mu : ℚ) (ps : List Point) (h : f.Describes bands no mu ps) :
    readNew f.lines = some (bands, no, mu, ps) := by
  obtain ⟨ha, hb, hc, hn, ⟨x, k, v, r, hl, hx⟩, h1, h2, h3, ⟨w, h4, hw⟩, hp⟩ := h
  unfold readNew File.lines
  simp only [skip, Option.bind_eq_bind, Option.bind_some]
  rw [header_eq f.before f.after f.attributes x k v r hl hc ha hb hx]
  simp only [Option.bind_some]
  rw [size_eq _ _ _ h1 hn, size_eq _ _ _ h2 hn, size_eq _ _ _ h3 hn, lookup_reverse _ _ _ h4 hn]
  simp only [Option.bind_some, hw]
  rw [readPoints_eq bands no f.blocks ps f.rest hp]
  rfl

end Verif.AtomicProj
