import Verif.Xml.Model
import Verif.Pwo.Lemmas
import Verif.MPI.Props
import Mathlib.Tactic.Linarith

/-!
# Property C133: reading electron-phonon coupling from XML files
-/

namespace Verif.Xml

open Verif.Text Verif.Pwo

/-! ### Specification -/

/-- Text of a complex number: separated by a comma in old files and by white space in new files. -/
def ComplexText (old : Bool) (l : Str) (z : ℚ × ℚ) : Prop :=
  ∃ u v, readFloat u = some z.1 ∧ readFloat v = some z.2 ∧
    if old then ∃ s t, l = s ++ ',' :: t ∧ ',' ∉ s ∧ ',' ∉ t ∧ words s = [u] ∧ words t = [v] else words l = [u, v]

/-- Number in a file: in the line after the tag in old files and between the tags in new files. -/
def NumberText (old : Bool) (tag : Str) (line : Str) (n : Nat) : Prop :=
  if old then words line = [showInt n] else ∃ p s, tag = p ++ '>' :: (showInt n ++ '<' :: s) ∧ '>' ∉ p

/-- The coordinates belong to a mesh point (modulo reciprocal lattice vectors). -/
def Near (nk : Nat) (a : ℚ × ℚ) (x y : ℚ) (k : Nat) : Prop := k < nk ∧ ∃ j : ℤ, |(x * a.1 + y * a.2) * nk - (k + nk * j)| < 1 / 2

/-- Part of a file for one k point. -/
structure Block where
  before : List Str
  tag : Str
  coordinates : Str
  between : List Str
  tag' : Str
  values : List Str
  after : List Str

/-- Lines of this part. -/
def Block.lines (b : Block) : List Str := b.before ++ b.tag :: b.coordinates :: (b.between ++ b.tag' :: (b.values ++ b.after))

/-- The part describes the coupling `g` (indices of final and initial band) at a mesh point. -/
def Block.Describes (old : Bool) (nk nbands : Nat) (a1 a2 : ℚ × ℚ) (b : Block) (k1 k2 : Nat) (g : Nat → Nat → ℚ × ℚ) : Prop :=
  (∀ l ∈ b.before, ¬ "<COORDINATES_XK".toList <:+: l) ∧ "<COORDINATES_XK".toList <:+: b.tag ∧
  (∃ x y z, (words b.coordinates).mapM readFloat = some (x :: y :: z) ∧ Near nk a1 x y k1 ∧ Near nk a2 x y k2) ∧
  (∀ l ∈ b.between, ¬ "<PARTIAL_ELPH".toList <:+: l) ∧ "<PARTIAL_ELPH".toList <:+: b.tag' ∧
  b.values.length = nbands * nbands ∧ (∀ i < nbands, ∀ j < nbands, ∃ l, b.values[j * nbands + i]? = some l ∧ ComplexText old l (g i j)) ∧
  ∀ l ∈ b.after, ¬ "<COORDINATES_XK".toList <:+: l

/-- File. -/
structure File where
  pre : List Str
  tagK : Str
  numK : Str
  mid : List Str
  tagB : Str
  numB : Str
  skip : List Str
  blocks : List Block
  post : List Str

/-- Lines of the file. -/
def File.lines (old : Bool) (f : File) : List Str :=
  f.pre ++ f.tagK :: ((if old then [f.numK] else []) ++ (f.mid ++ f.tagB :: ((if old then [f.numB] else []) ++
    (f.skip ++ (f.blocks.flatMap Block.lines ++ f.post)))))

/-- The file describes the coupling for the k points of a mesh in any order. -/
def File.Describes (old : Bool) (nk nbands : Nat) (a1 a2 : ℚ × ℚ) (f : File) (g : Nat → Nat → Nat → Nat → ℚ × ℚ) : Prop :=
  (∀ l ∈ f.pre, ¬ "<NUMBER_OF_K".toList <:+: l) ∧ "<NUMBER_OF_K".toList <:+: f.tagK ∧ NumberText old f.tagK f.numK (nk * nk) ∧
  (∀ l ∈ f.mid, ¬ "<NUMBER_OF_BANDS".toList <:+: l) ∧ "<NUMBER_OF_BANDS".toList <:+: f.tagB ∧ NumberText old f.tagB f.numB nbands ∧
  (∀ l ∈ f.skip, ¬ "<COORDINATES_XK".toList <:+: l) ∧ f.blocks.length = nk * nk ∧ (∀ b ∈ f.blocks, ∃ k1 k2, b.Describes old nk nbands a1 a2 k1 k2 (g k1 k2)) ∧
  ∀ k1 < nk, ∀ k2 < nk, ∃ b ∈ f.blocks, b.Describes old nk nbands a1 a2 k1 k2 (g k1 k2)

/-! ### Parts of lines -/

theorem splitOn_none (c : Char) (s acc : Str) (h : c ∉ s) : splitOn c acc s = [acc ++ s] := by
  induction s generalizing acc with
  | nil => simp [splitOn]
  | cons x s ih =>
    rw [List.mem_cons, not_or] at h
    rw [splitOn, if_neg (Ne.symm h.1), ih _ h.2, List.append_assoc]
    rfl

theorem splitOn_one (c : Char) (s t acc : Str) (hs : c ∉ s) (ht : c ∉ t) : splitOn c acc (s ++ c :: t) = [acc ++ s, t] := by
  induction s generalizing acc with
  | nil => simp [splitOn, splitOn_none c t [] ht]
  | cons x s ih =>
    rw [List.mem_cons, not_or] at hs
    rw [List.cons_append, splitOn, if_neg (Ne.symm hs.1), ih _ hs.2, List.append_assoc]
    rfl

theorem complexOf_text (old : Bool) (l : Str) (z : ℚ × ℚ) (h : ComplexText old l z) : complexOf old l = some z := by
  obtain ⟨u, v, hu, hv, h⟩ := h
  cases old with
  | true =>
    obtain ⟨s, t, rfl, hs, ht, hs', ht'⟩ := h
    rw [complexOf, if_pos rfl, splitOn_one ',' s t [] hs ht]
    rw [List.nil_append]
    have e1 : floatOf s = some z.1 := by rw [floatOf, hs', ← hu]
    have e2 : floatOf t = some z.2 := by rw [floatOf, ht', ← hv]
    simp [e1, e2]
  | false =>
    have h : words l = [u, v] := h
    rw [complexOf, h]
    simp [hu, hv]

theorem goto_skip (p : Str) (b : List Str) (tag : Str) (r : List Str) (hb : ∀ l ∈ b, ¬ p <:+: l) (ht : p <:+: tag) :
    goto p (b ++ tag :: r) = (some tag, r) := by
  induction b with
  | nil => rw [List.nil_append, goto, if_pos ((has_iff _ _).2 ht)]
  | cons l b ih =>
    rw [List.cons_append, goto, has_false _ _ (hb l (by simp)), if_neg (by simp), ih fun l hl => hb l (by simp [hl])]

theorem intag_eq (p s n : Str) (hp : '>' ∉ p) (hn : '<' ∉ n) : intag (p ++ '>' :: (n ++ '<' :: s)) = some n := by
  have h := (takeWhile_append (p := (· ≠ '>')) p '>' (n ++ '<' :: s) (fun x hx => by simpa using fun e : x = '>' => hp (e ▸ hx)) (by simp)).2
  have h' := (takeWhile_append (p := (· ≠ '<')) n '<' s (fun x hx => by simpa using fun e : x = '<' => hn (e ▸ hx)) (by simp)).1
  unfold intag
  rw [h]
  simp only
  rw [h']

theorem words_solid (s : Str) (h : Solid s) : words s = [s] := by
  have := wordsAux_solid s h.2 [] []
  rw [List.append_nil] at this
  rw [words, this, List.nil_append, wordsAux, if_neg h.1]

theorem intOf_showInt (n : Nat) : intOf (showInt n) = some (n : Int) := by
  rw [intOf, words_solid _ (showInt_solid _)]
  exact readInt_showInt _

theorem showInt_no (c : Char) (hc : numeric c = false) (z : Int) : c ∉ showInt z := fun h => by
  have := showInt_numeric z c h
  rw [hc] at this
  exact absurd this (by decide)

theorem number_text (old : Bool) (p : Str) (b : List Str) (tag line : Str) (n : Nat) (r : List Str) (hb : ∀ l ∈ b, ¬ p <:+: l) (ht : p <:+: tag)
    (h : NumberText old tag line n) : number old p (b ++ tag :: ((if old then [line] else []) ++ r)) = some ((n : Int), r) := by
  cases old with
  | true =>
    have h : words line = [showInt n] := h
    unfold number
    rw [goto_skip p b tag _ hb ht]
    simp [intOf, h, readInt_showInt]
  | false =>
    obtain ⟨q, s, rfl, hq⟩ := h
    unfold number
    rw [goto_skip p b _ _ hb ht]
    simp [intag_eq q s _ hq (showInt_no '<' (by decide) _), intOf_showInt]

/-! ### Bands -/

theorem bandFold (nbands : Nat) (bands : List Int) (bs : List Nat) (h : bands.map (pyIndex nbands) = bs.map some) (hn : bs.Nodup)
    (hb : ∀ b ∈ bs, b < nbands) (s : Nat) (l0 : List (Option Nat)) (hl : l0.length = nbands) :
    ∃ l, (bands.zipIdx s).foldlM (fun l mn => (pyIndex l.length mn.1).map fun m => l.set m (some mn.2)) l0 = some l ∧
      l.length = nbands ∧ ∀ m, l[m]? = if m ∈ bs then some (some (s + bs.idxOf m)) else l0[m]? := by
  induction bs generalizing bands s l0 with
  | nil =>
    cases bands with
    | nil => exact ⟨l0, rfl, hl, fun m => by simp⟩
    | cons => simp at h
  | cons b bs ih =>
    cases bands with
    | nil => simp at h
    | cons c bands =>
      simp only [List.map_cons, List.cons.injEq] at h
      rw [List.nodup_cons] at hn
      obtain ⟨l, h1, h2, h3⟩ := ih bands h.2 hn.2 (fun x hx => hb x (by simp [hx])) (s + 1) (l0.set b (some s)) (by simpa using hl)
      refine ⟨l, ?_, h2, fun m => ?_⟩
      · rw [List.zipIdx_cons, List.foldlM_cons, hl, h.1]
        exact h1
      · rw [h3 m]
        by_cases hm : m = b
        · subst hm
          rw [if_neg hn.1, if_pos (by simp), List.getElem?_set_self (by rw [hl]; exact hb m (by simp))]
          simp
        · by_cases hm' : m ∈ bs
          · rw [if_pos hm', if_pos (by simp [hm']), List.idxOf_cons_ne bs (Ne.symm hm)]
            congr 2
            omega
          · rw [if_neg hm', if_neg (by simp [hm, hm']), List.getElem?_set_ne (Ne.symm hm)]

theorem bandSelect_eq (nbands : Nat) (bands : List Int) (bs : List Nat) (h : bands.map (pyIndex nbands) = bs.map some) (hn : bs.Nodup)
    (hb : ∀ b ∈ bs, b < nbands) :
    bandSelect nbands bands = some ((List.range nbands).map fun m => if m ∈ bs then some (bs.idxOf m) else none) := by
  obtain ⟨l, h1, h2, h3⟩ := bandFold nbands bands bs h hn hb 0 (List.replicate nbands none) (by simp)
  rw [bandSelect, h1]
  congr 1
  apply List.ext_getElem?
  intro m
  rw [h3 m]
  by_cases hm : m < nbands
  · simp only [List.getElem?_replicate, hm, if_true, List.getElem?_map, List.getElem?_range hm, Option.map_some, Nat.zero_add]
    split <;> rfl
  · rw [if_neg fun h => hm (hb m h)]
    simp [hm]

/-! ### Loops -/

theorem valueLoop_eq (old : Bool) (k1 k2 : Nat) (v : Nat → Nat → ℚ × ℚ) (P : List (Option Nat × Option Nat)) (vs r : List Str)
    (h : List.Forall₂ (fun p l => ∀ n m, p = (some n, some m) → complexOf old l = some (v m n)) P vs) (t : Table) :
    ∃ t', valueLoop old k1 k2 P (vs ++ r) t = some (r, t') ∧ ∀ a b m n, t' a b m n =
      if a = k1 ∧ b = k2 ∧ (some n, some m) ∈ P then some (v m n) else t a b m n := by
  induction h generalizing t with
  | nil => exact ⟨t, by rw [List.nil_append, valueLoop], fun a b m n => by simp⟩
  | @cons p l P vs h0 h ih =>
    rcases p with ⟨_ | n, _ | m⟩
    · obtain ⟨t', h1, h2⟩ := ih t
      exact ⟨t', by rw [List.cons_append, valueLoop]; exact h1; simp, fun a b m n => by rw [h2]; simp⟩
    · obtain ⟨t', h1, h2⟩ := ih t
      exact ⟨t', by rw [List.cons_append, valueLoop]; exact h1; simp, fun a b m n => by rw [h2]; simp⟩
    · obtain ⟨t', h1, h2⟩ := ih t
      exact ⟨t', by rw [List.cons_append, valueLoop]; exact h1; simp, fun a b m n => by rw [h2]; simp⟩
    · obtain ⟨t', h1, h2⟩ := ih (t.set k1 k2 m n (v m n))
      refine ⟨t', ?_, fun a b m' n' => ?_⟩
      · rw [List.cons_append, valueLoop, h0 n m rfl]
        exact h1
      · rw [h2]
        unfold Table.set
        simp only [List.mem_cons, Prod.mk.injEq, Option.some_inj]
        by_cases hk : a = k1 ∧ b = k2
        · by_cases hm : m' = m ∧ n' = n
          · obtain ⟨rfl, rfl⟩ := hm
            simp [hk.1, hk.2]
          · have : ¬ (n' = n ∧ m' = m) := fun h => hm ⟨h.2, h.1⟩
            simp [hk.1, hk.2, hm, this]
        · have e1 : ¬ (a = k1 ∧ b = k2 ∧ (some n', some m') ∈ P) := fun h => hk ⟨h.1, h.2.1⟩
          have e2 : ¬ (a = k1 ∧ b = k2 ∧ ((n' = n ∧ m' = m) ∨ (some n', some m') ∈ P)) := fun h => hk ⟨h.1, h.2.1⟩
          have e3 : ¬ (a = k1 ∧ b = k2 ∧ m' = m ∧ n' = n) := fun h => hk ⟨h.1, h.2.1⟩
          rw [if_neg e1, if_neg e2, if_neg e3]

theorem meshIndex_near (nk : Nat) (a : ℚ × ℚ) (x y : ℚ) (k : Nat) (h : Near nk a x y k) : meshIndex nk a x y = k := by
  obtain ⟨hk, j, h⟩ := h
  have e : roundEven ((x * a.1 + y * a.2) * nk) = (k : ℤ) + nk * j := by
    have h1 := roundEven_near ((x * a.1 + y * a.2) * nk)
    have h2 : |((roundEven ((x * a.1 + y * a.2) * nk) - ((k : ℤ) + nk * j) : ℤ) : ℚ)| < 1 := by
      push_cast
      rw [abs_lt] at h ⊢
      rw [abs_le] at h1
      constructor <;> linarith [h.1, h.2, h1.1, h1.2]
    have h3 : |roundEven ((x * a.1 + y * a.2) * nk) - ((k : ℤ) + nk * j)| < 1 := by exact_mod_cast h2
    have := Int.abs_lt_one_iff.1 h3
    omega
  rw [meshIndex, e, Int.add_mul_emod_self_left, Int.emod_eq_of_lt (by omega) (by omega)]
  simp

theorem flatMap_getElem (N : Nat) {β : Type} (f : Nat → Nat → β) (i j : Nat) (hi : i < N) (hj : j < N) :
    ((List.range N).flatMap fun j => (List.range N).map fun i => f j i)[j * N + i]? = some (f j i) := by
  have key : ∀ M, j < M → ((List.range M).flatMap fun j => (List.range N).map fun i => f j i)[j * N + i]? = some (f j i) := by
    intro M
    induction M with
    | zero => omega
    | succ M ih =>
      intro hM
      have hl : ((List.range M).flatMap fun j => (List.range N).map fun i => f j i).length = M * N := by
        simp [List.length_flatMap]
      rw [List.range_succ, List.flatMap_append, List.flatMap_singleton]
      rcases Nat.lt_or_ge j M with h | h
      · rw [List.getElem?_append_left (by rw [hl]; nlinarith), ih h]
      · have : j = M := by omega
        subst this
        rw [List.getElem?_append_right (by rw [hl]; omega), hl]
        simp [hi]
  exact key N hj

theorem mem_select (nbands : Nat) (bs : List Nat) (hn : bs.Nodup) (hb : ∀ b ∈ bs, b < nbands) (n : Nat) :
    some n ∈ ((List.range nbands).map fun m => if m ∈ bs then some (bs.idxOf m) else none) ↔ n < bs.length := by
  rw [List.mem_map]
  constructor
  · rintro ⟨m, -, h⟩
    split at h
    · rename_i hm
      rw [Option.some_inj] at h
      rw [← h]
      exact List.idxOf_lt_length_of_mem hm
    · simp at h
  · intro h
    refine ⟨bs[n], List.mem_range.2 (hb _ (List.getElem_mem h)), ?_⟩
    rw [if_pos (List.getElem_mem h), hn.idxOf_getElem n h]

theorem kStep_eq (old : Bool) (nk nbands : Nat) (bs : List Nat) (a1 a2 : ℚ × ℚ) (b : Block) (k1 k2 : Nat) (g : Nat → Nat → ℚ × ℚ)
    (h : b.Describes old nk nbands a1 a2 k1 k2 g) (hn : bs.Nodup) (hb : ∀ b ∈ bs, b < nbands) (junk r : List Str)
    (hj : ∀ l ∈ junk, ¬ "<COORDINATES_XK".toList <:+: l) (t : Table) :
    ∃ t', kStep old nk ((List.range nbands).map fun m => if m ∈ bs then some (bs.idxOf m) else none) a1 a2
      (junk ++ (b.lines ++ r)) t = some (b.after ++ r, t') ∧ ∀ a b m n, t' a b m n = if a = k1 ∧ b = k2 ∧ n < bs.length ∧ m < bs.length then
        some (g (bs.getD m 0) (bs.getD n 0)) else t a b m n := by
  obtain ⟨h1, h2, ⟨x, y, z, h3, h4, h5⟩, h6, h7, h8, h9, -⟩ := h
  have hs := mem_select nbands bs hn hb
  set sel := (List.range nbands).map fun m => if m ∈ bs then some (bs.idxOf m) else none with hsel
  obtain ⟨t', e1, e2⟩ := valueLoop_eq old k1 k2 (fun m n => g (bs.getD m 0) (bs.getD n 0)) (sel.flatMap fun n => sel.map fun m => (n, m))
    b.values (b.after ++ r) (by
      have hlen : (sel.flatMap fun n => sel.map fun m => (n, m)).length = nbands * nbands := by
        have : sel.length = nbands := by simp [hsel]
        simp [List.length_flatMap, this]
      have hP : ∀ i < nbands, ∀ j < nbands, (sel.flatMap fun n => sel.map fun m => (n, m))[j * nbands + i]? =
          some (if j ∈ bs then some (bs.idxOf j) else none, if i ∈ bs then some (bs.idxOf i) else none) := by
        intro i hi j hj
        have := flatMap_getElem nbands (fun j i => (if j ∈ bs then some (bs.idxOf j) else none, if i ∈ bs then some (bs.idxOf i) else none))
          i j hi hj
        rw [← this, hsel, List.flatMap_map]
        congr 2
        funext j
        rw [List.map_map]
        rfl
      rw [List.forall₂_iff_get]
      refine ⟨by rw [hlen, h8], fun idx hi1 hi2 n m hnm => ?_⟩
      have hidx : idx < nbands * nbands := by omega
      have hN : 0 < nbands := by
        rcases Nat.eq_zero_or_pos nbands with h0 | h0
        · rw [h0] at hidx; omega
        · exact h0
      have hj : idx / nbands < nbands := Nat.div_lt_of_lt_mul hidx
      have hi : idx % nbands < nbands := Nat.mod_lt _ hN
      have e : idx / nbands * nbands + idx % nbands = idx := Nat.div_add_mod' idx nbands
      obtain ⟨l, hl, hc⟩ := h9 _ hi _ hj
      have hp := hP _ hi _ hj
      rw [e] at hl hp
      rw [List.get_eq_getElem] at hnm ⊢
      rw [List.getElem?_eq_getElem hi1, Option.some_inj, hnm, Prod.mk.injEq] at hp
      rw [List.getElem?_eq_getElem hi2, Option.some_inj] at hl
      have hget : ∀ c k, some c = (if k ∈ bs then some (bs.idxOf k) else none) → bs.getD c 0 = k := by
        intro c k hck
        split at hck
        · rename_i hk
          rw [Option.some_inj] at hck
          rw [hck, List.getD_eq_getElem?_getD, List.getElem?_eq_getElem (List.idxOf_lt_length_of_mem hk), Option.getD_some,
            List.getElem_idxOf]
        · simp at hck
      rw [hl, hget m _ hp.2, hget n _ hp.1]
      exact complexOf_text old l _ hc) t
  refine ⟨t', ?_, fun a b m n => ?_⟩
  · rw [Block.lines, List.append_assoc, List.cons_append, List.cons_append, List.append_assoc, List.cons_append, List.append_assoc,
      ← List.append_assoc junk]
    unfold kStep
    rw [goto_skip _ (junk ++ b.before) _ _ (fun l hl => (List.mem_append.1 hl).elim (hj l) (h1 l)) h2]
    simp only [h3]
    rw [goto_skip _ _ _ _ h6 h7, meshIndex_near _ _ _ _ _ h4, meshIndex_near _ _ _ _ _ h5]
    exact e1
  · rw [e2]
    refine if_congr ?_ rfl rfl
    rw [List.mem_flatMap]
    simp only [List.mem_map, Prod.mk.injEq]
    constructor
    · rintro ⟨ha, hb, o, ho, o', ho', rfl, rfl⟩
      exact ⟨ha, hb, (hs n).1 ho, (hs m).1 ho'⟩
    · rintro ⟨ha, hb, hn, hm⟩
      exact ⟨ha, hb, some n, (hs n).2 hn, some m, (hs m).2 hm, rfl, rfl⟩

theorem kLoop_eq (old : Bool) (nk nbands : Nat) (bs : List Nat) (a1 a2 : ℚ × ℚ) (g : Nat → Nat → Nat → Nat → ℚ × ℚ) (hn : bs.Nodup)
    (hb : ∀ b ∈ bs, b < nbands) (r : List Str) (blocks : List Block) (junk : List Str) (hj : ∀ l ∈ junk, ¬ "<COORDINATES_XK".toList <:+: l) (h : ∀ b ∈ blocks, ∃ k1 k2, b.Describes old nk nbands a1 a2 k1 k2 (g k1 k2))
    (t : Table) :
    ∃ t', kLoop old nk ((List.range nbands).map fun m => if m ∈ bs then some (bs.idxOf m) else none) a1 a2 blocks.length
      (junk ++ (blocks.flatMap Block.lines ++ r)) t = some t' ∧
      ∀ k1 k2 m n, m < bs.length → n < bs.length → (t k1 k2 m n = some (g k1 k2 (bs.getD m 0) (bs.getD n 0)) ∨
        ∃ b ∈ blocks, b.Describes old nk nbands a1 a2 k1 k2 (g k1 k2)) → t' k1 k2 m n = some (g k1 k2 (bs.getD m 0) (bs.getD n 0)) := by
  induction blocks generalizing junk t with
  | nil => exact ⟨t, rfl, fun k1 k2 m n _ _ h => by simpa using h⟩
  | cons b blocks ih =>
    obtain ⟨k1, k2, hd⟩ := h b (by simp)
    obtain ⟨t1, e1, e2⟩ := kStep_eq old nk nbands bs a1 a2 b k1 k2 (g k1 k2) hd hn hb junk (blocks.flatMap Block.lines ++ r) hj t
    obtain ⟨t', e3, e4⟩ := ih b.after hd.2.2.2.2.2.2.2 (fun b hb => h b (by simp [hb])) t1
    refine ⟨t', ?_, fun k1' k2' m n hm hn' h' => ?_⟩
    · rw [List.length_cons, kLoop, List.flatMap_cons, List.append_assoc, e1]
      exact e3
    · apply e4 _ _ _ _ hm hn'
      rcases h' with h' | ⟨c, hc, h'⟩
      · left
        rw [e2]
        split
        · rename_i hk
          rw [hk.1, hk.2.1]
        · exact h'
      · rcases List.mem_cons.1 hc with rfl | hc
        · left
          have u1 := hd.2.2.1
          have u2 := h'.2.2.1
          obtain ⟨x, y, z, u3, u4, u5⟩ := u1
          obtain ⟨x', y', z', v3, v4, v5⟩ := u2
          rw [u3, Option.some_inj] at v3
          simp only [List.cons.injEq] at v3
          obtain ⟨rfl, rfl, rfl⟩ := v3
          have w1 := (meshIndex_near _ _ _ _ _ u4).symm.trans (meshIndex_near _ _ _ _ _ v4)
          have w2 := (meshIndex_near _ _ _ _ _ u5).symm.trans (meshIndex_near _ _ _ _ _ v5)
          rw [e2, ← w1, ← w2, if_pos ⟨rfl, rfl, hn', hm⟩]
        · exact Or.inr ⟨c, hc, h'⟩

/-! ### Results -/

/-- Reading a file. -/
theorem readFile_eq (old : Bool) (nk nbands : Nat) (bands : List Int) (bs : List Nat) (h : bands.map (pyIndex nbands) = bs.map some) (hn : bs.Nodup)
    (hb : ∀ b ∈ bs, b < nbands) (a1 a2 : ℚ × ℚ) (f : File) (g : Nat → Nat → Nat → Nat → ℚ × ℚ) (hf : f.Describes old nk nbands a1 a2 g) :
    ∃ t, readFile old nk nbands bands a1 a2 (f.lines old) = some t ∧ ∀ k1 < nk, ∀ k2 < nk, ∀ m < bs.length, ∀ n < bs.length,
      t k1 k2 m n = some (g k1 k2 (bs.getD m 0) (bs.getD n 0)) := by
  obtain ⟨f1, f2, f3, f4, f5, f6, f0, f7, f8, f9⟩ := hf
  obtain ⟨t, e1, e2⟩ := kLoop_eq old nk nbands bs a1 a2 g hn hb f.post f.blocks f.skip f0 f8 fun _ _ _ _ => none
  refine ⟨t, ?_, fun k1 h1 k2 h2 m hm n hn => e2 k1 k2 m n hm hn (Or.inr (f9 k1 h1 k2 h2))⟩
  rw [readFile, bandSelect_eq nbands bands bs h hn hb, File.lines]
  simp only [Option.bind_eq_bind, Option.bind_some]
  rw [number_text old _ _ _ _ _ _ f1 f2 f3]
  simp only [Option.bind_some]
  rw [if_neg (by omega)]
  rw [number_text old _ _ _ _ _ _ f4 f5 f6]
  simp only [Option.bind_some]
  rw [← f7]
  exact e1

/-- **C133**: `read_xml_files` returns the coupling described by the files (for selected q points, displacements and bands), whatever the order of
the k points in the files and the number of processes. -/
theorem C133_read (size : Nat) (hsize : 0 < size) (old : Bool) (files : Nat → Nat → File) (q rep : List Nat) (nk nbands : Nat) (bands : List Int)
    (bs : List Nat) (h : bands.map (pyIndex nbands) = bs.map some) (hn : bs.Nodup) (hb : ∀ b ∈ bs, b < nbands) (a1 a2 : ℚ × ℚ)
    (g : Nat → Nat → Nat → Nat → Nat → Nat → ℚ × ℚ)
    (hf : ∀ iq ∈ q, ∀ irep ∈ rep, (files (iq + 1) (irep + 1)).Describes old nk nbands a1 a2 (g iq irep)) :
    ∃ T, readXml size (fun iq irep => (files iq irep).lines old) q rep bands nbands nk a1 a2 old = some T ∧ T.length = q.length ∧
      ∀ x, (hx : x < q.length) → ∃ R, T[x]? = some R ∧ R.length = rep.length ∧ ∀ y, (hy : y < rep.length) → ∃ t, R[y]? = some t ∧
        ∀ k1 < nk, ∀ k2 < nk, ∀ m < bs.length, ∀ n < bs.length, t k1 k2 m n = some (g q[x] rep[y] k1 k2 (bs.getD m 0) (bs.getD n 0)) := by
  classical
  have key : ∀ iq ∈ q, ∀ irep ∈ rep, ∃ t, readFile old nk nbands bands a1 a2 ((files (iq + 1) (irep + 1)).lines old) = some t ∧
      ∀ k1 < nk, ∀ k2 < nk, ∀ m < bs.length, ∀ n < bs.length, t k1 k2 m n = some (g iq irep k1 k2 (bs.getD m 0) (bs.getD n 0)) :=
    fun iq hq irep hr => readFile_eq old nk nbands bands bs h hn hb a1 a2 _ _ (hf iq hq irep hr)
  let F : Nat → Nat → Table := fun iq irep =>
    (readFile old nk nbands bands a1 a2 ((files (iq + 1) (irep + 1)).lines old)).getD fun _ _ _ _ => none
  have hF : ∀ iq ∈ q, ∀ irep ∈ rep, readFile old nk nbands bands a1 a2 ((files (iq + 1) (irep + 1)).lines old) = some (F iq irep) := by
    intro iq hq irep hr
    obtain ⟨t, ht, -⟩ := key iq hq irep hr
    simp only [F, ht, Option.getD_some]
  refine ⟨q.map fun iq => rep.map (F iq), ?_, by simp, fun x hx => ⟨rep.map (F q[x]), by simp [hx], by simp, fun y hy =>
    ⟨F q[x] rep[y], by simp [hy], ?_⟩⟩⟩
  · rw [readXml, Verif.MPI.C02_parMap size hsize]
    simp only [Option.bind_eq_bind, Option.bind_some]
    apply mapM_map
    intro iq hq
    show List.mapM (fun irep => readFile old nk nbands bands a1 a2 ((files (iq + 1) (irep + 1)).lines old)) rep = some (rep.map (F iq))
    have := mapM_map (fun irep : Nat => irep) (fun irep => readFile old nk nbands bands a1 a2 ((files (iq + 1) (irep + 1)).lines old)) (F iq) rep
      (fun irep hr => hF iq hq irep hr)
    simpa using this
  · obtain ⟨t, ht, ht'⟩ := key q[x] (List.getElem_mem hx) rep[y] (List.getElem_mem hy)
    have : F q[x] rep[y] = t := by simp only [F, ht, Option.getD_some]
    rw [this]
    exact ht'

end Verif.Xml
