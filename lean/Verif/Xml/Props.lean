import Verif.Xml.Read
import Mathlib.Tactic.Positivity
import Mathlib.Tactic.FieldSimp

/-!
# Property C133: writing and reading electron-phonon coupling in XML files
-/

namespace Verif.Xml

open Verif.Text Verif.Pwo

/-! ### Lines -/

/-- Value of a complex number as written. -/
def rounded (z : ℚ × ℚ) : ℚ × ℚ := (roundExp 15 z.1, roundExp 15 z.2)

theorem showExp_chars (d : Nat) (x : ℚ) : ∀ c ∈ showExp 'E' d x, numeric c = true ∨ c = 'E' ∨ c = '+' := by
  intro c hc
  simp only [showExp, List.mem_append, List.mem_cons] at hc
  rcases hc with (((hc | hc) | hc)) | hc
  · split at hc
    · rw [List.mem_singleton.1 hc]
      exact Or.inl (by decide)
    · simp at hc
  · exact Or.inl (Digits.numeric (showNat_digits _) c hc)
  · rcases hc with hc | hc
    · rw [hc]
      exact Or.inl (by decide)
    · exact Or.inl (Digits.numeric (padWith_digits _ _ (showNat_digits _)) c hc)
  · rcases hc with hc | hc | hc
    · exact Or.inr (Or.inl hc)
    · rw [hc]
      split
      · exact Or.inl (by decide)
      · exact Or.inr (Or.inr rfl)
    · exact Or.inl (Digits.numeric (padWith_digits _ _ (showNat_digits _)) c hc)

theorem showExp_no (c : Char) (h : numeric c = false ∧ c ≠ 'E' ∧ c ≠ '+') (d : Nat) (x : ℚ) : c ∉ showExp 'E' d x := fun hc => by
  rcases showExp_chars d x c hc with h' | h' | h'
  · rw [h.1] at h'
    exact absurd h' (by decide)
  · exact h.2.1 h'
  · exact h.2.2 h'

theorem padLeft_no (c : Char) (hc : c ≠ ' ') (w : Nat) (s : Str) (h : c ∉ s) : c ∉ padLeft w s := by
  simp only [padLeft, padWith, List.mem_append, List.mem_replicate, not_or]
  exact ⟨fun h => hc h.2, h⟩

theorem exp_solid (x : ℚ) : Solid (showExp 'E' 15 x) := showExp_solid 'E' rfl 15 x

theorem words_padLeft (w : Nat) (s : Str) (h : Solid s) : words (padLeft w s) = [s] := by
  rw [words, padLeft, padWith, words_space]
  exact words_solid s h

theorem words_padLeft_newline (w : Nat) (s : Str) (h : Solid s) : words (padLeft w s ++ ['\n']) = [s] := by
  have := words_fmt [⟨0, w, s⟩] (by simpa using h) (by simp)
  simpa [fmt] using this

theorem valueLine_text (z : ℚ × ℚ) : ComplexText true (valueLine z) (rounded z) := by
  refine ⟨showExp 'E' 15 z.1, showExp 'E' 15 z.2, readFloat_showExp 'E' rfl 15 (by norm_num) _, readFloat_showExp 'E' rfl 15 (by norm_num) _,
    padLeft 23 (showExp 'E' 15 z.1), padLeft 23 (showExp 'E' 15 z.2) ++ ['\n'], rfl, ?_, ?_, words_padLeft _ _ (exp_solid _),
    words_padLeft_newline _ _ (exp_solid _)⟩
  · exact padLeft_no _ (by decide) _ _ (showExp_no _ (by decide) _ _)
  · rw [List.mem_append, not_or]
    exact ⟨padLeft_no _ (by decide) _ _ (showExp_no _ (by decide) _ _), by decide⟩

theorem words_kLine (x y : ℚ) : (words (kLine x y)).mapM readFloat = some [roundExp 15 x, roundExp 15 y, roundExp 15 0] := by
  have e : kLine x y = fmt [fExp 0 23 'E' 15 x, fExp 1 23 'E' 15 y, fExp 1 23 'E' 15 0] ++ ['\n'] := by
    simp [kLine, fmt, fExp]
  rw [e, words_fmt]
  · exact mapM_map (fun x => showExp 'E' 15 x) readFloat (roundExp 15) [x, y, 0] fun a _ => readFloat_showExp 'E' rfl 15 (by norm_num) a
  · intro f hf
    simp only [List.mem_cons, List.not_mem_nil, or_false] at hf
    rcases hf with rfl | rfl | rfl <;> exact exp_solid _
  · intro f hf
    simp only [List.tail_cons, List.mem_cons, List.not_mem_nil, or_false] at hf
    rcases hf with rfl | rfl <;> exact Or.inl Nat.one_pos

theorem intLine_not (p a b : String) (n : Nat) (hp : ∀ c ∈ p.toList, numeric c = false) (ha : ¬ p.toList <:+: a.toList)
    (hb : ¬ p.toList <:+: b.toList ++ ['\n']) : ¬ p.toList <:+: intLine a n b := by
  intro h
  rcases infix_mid p.toList a.toList (showInt n) (b.toList ++ ['\n']) hp (showInt_solid n).1 (showInt_numeric n) h with h | h
  · exact ha h
  · exact hb h

theorem words_intLine (n : Nat) : words (intLine "      " n "") = [showInt n] := by
  have := words_fmt [⟨6, 0, showInt n⟩] (by simpa using showInt_solid n) (by simp)
  have e : intLine "      " n "" = fmt [⟨6, 0, showInt n⟩] ++ ['\n'] := by
    simp [intLine, fmt, padLeft, padWith]
  rw [e, this]
  rfl

/-! ### Written files -/

/-- Part of a written file. -/
def writtenBlock (nbands ik : Nat) (x y : ℚ) (g : Nat → Nat → ℚ × ℚ) : Block where
  before := [intLine "    <K_POINT." ik ">"]
  tag := "      <COORDINATES_XK type=\"real\" size=\"3\" columns=\"3\">\n".toList
  coordinates := kLine x y
  between := ["      </COORDINATES_XK>\n".toList]
  tag' := intLine "      <PARTIAL_ELPH type=\"complex\" size=\"" (nbands * nbands) "\">"
  values := (List.range nbands).flatMap fun j => (List.range nbands).map fun i => valueLine (g i j)
  after := ["      </PARTIAL_ELPH>\n".toList, intLine "    </K_POINT." ik ">"]

/-- First lines of a written file. -/
def headLines : List Str :=
  textLines ["<?xml version=\"1.0\"?>", "<?iotk version=\"1.2.0\"?>", "<?iotk file_version=\"1.0\"?>", "<?iotk binary=\"F\"?>",
    "<?iotk qe_syntax=\"F\"?>", "<Root>", "  <EL_PHON_HEADER>", "    <DONE_ELPH type=\"logical\" size=\"1\">", "      T",
    "    </DONE_ELPH>", "  </EL_PHON_HEADER>", "  <PARTIAL_EL_PHON>"]

/-- Line with the tag of the number of k points. -/
def lineK : Str := "    <NUMBER_OF_K type=\"integer\" size=\"1\">".toList ++ ['\n']

/-- Line with the tag of the number of bands. -/
def lineB : Str := "    <NUMBER_OF_BANDS type=\"integer\" size=\"1\">".toList ++ ['\n']

theorem head_not : ∀ l ∈ headLines, ¬ "<NUMBER_OF_K".toList <:+: l := by decide +kernel

theorem lineK_has : "<NUMBER_OF_K".toList <:+: lineK := by decide +kernel

theorem lineK_intag : (intag lineK >>= intOf) = none := by decide +kernel

theorem mid_not : ∀ l ∈ textLines ["    </NUMBER_OF_K>"], ¬ "<NUMBER_OF_BANDS".toList <:+: l := by decide +kernel

theorem lineB_has : "<NUMBER_OF_BANDS".toList <:+: lineB := by decide +kernel

theorem skip_not : ∀ l ∈ textLines ["    </NUMBER_OF_BANDS>"], ¬ "<COORDINATES_XK".toList <:+: l := by decide +kernel

theorem post_not : ∀ l ∈ textLines ["  </PARTIAL_EL_PHON>", "</Root>"], ¬ "<COORDINATES_XK".toList <:+: l := by decide +kernel

theorem tag_has : "<COORDINATES_XK".toList <:+: "      <COORDINATES_XK type=\"real\" size=\"3\" columns=\"3\">\n".toList := by decide +kernel

/-- Structure of a written file. -/
def written (nk nbands : Nat) (b1 b2 : ℚ × ℚ) (g : Nat → Nat → Nat → Nat → ℚ × ℚ) : File where
  pre := headLines
  tagK := lineK
  numK := intLine "      " (nk * nk) ""
  mid := textLines ["    </NUMBER_OF_K>"]
  tagB := lineB
  numB := intLine "      " nbands ""
  skip := textLines ["    </NUMBER_OF_BANDS>"]
  blocks := (List.range nk).flatMap fun k1 => (List.range nk).map fun k2 => writtenBlock nbands (k1 * nk + k2 + 1)
    ((k1 * b1.1 + k2 * b2.1) / nk) ((k1 * b1.2 + k2 * b2.2) / nk) (g k1 k2)
  post := textLines ["  </PARTIAL_EL_PHON>", "</Root>"]

theorem written_lines (nk nbands : Nat) (b1 b2 : ℚ × ℚ) (g : Nat → Nat → Nat → Nat → ℚ × ℚ) :
    (written nk nbands b1 b2 g).lines true = writeFile nk nbands b1 b2 g := by
  have e : (written nk nbands b1 b2 g).blocks.flatMap Block.lines = (List.range nk).flatMap fun k1 => (List.range nk).flatMap fun k2 =>
      kBlock nbands (k1 * nk + k2 + 1) ((k1 * b1.1 + k2 * b2.1) / nk) ((k1 * b1.2 + k2 * b2.2) / nk) (g k1 k2) := by
    simp only [written, List.flatMap_assoc, List.flatMap_map]
    rfl
  unfold File.lines writeFile
  rw [e]
  rfl

theorem block_describes (nk nbands ik : Nat) (a1 a2 : ℚ × ℚ) (x y : ℚ) (k1 k2 : Nat) (g : Nat → Nat → ℚ × ℚ)
    (h1 : Near nk a1 (roundExp 15 x) (roundExp 15 y) k1) (h2 : Near nk a2 (roundExp 15 x) (roundExp 15 y) k2) :
    (writtenBlock nbands ik x y g).Describes true nk nbands a1 a2 k1 k2 fun i j => rounded (g i j) := by
  refine ⟨?_, tag_has, ⟨_, _, _, words_kLine x y, h1, h2⟩, ?_, ?_, ?_, ?_, ?_⟩
  · intro l hl
    rw [List.mem_singleton.1 hl]
    exact intLine_not _ _ _ _ (by decide +kernel) (by decide +kernel) (by decide +kernel)
  · intro l hl
    rw [List.mem_singleton.1 hl]
    decide +kernel
  · have : "<PARTIAL_ELPH".toList <:+: "      <PARTIAL_ELPH type=\"complex\" size=\"".toList := by decide +kernel
    exact this.trans (List.prefix_append _ _).isInfix
  · simp [writtenBlock, List.length_flatMap]
  · intro i hi j hj
    exact ⟨_, flatMap_getElem nbands (fun j i => valueLine (g i j)) i j hi hj, valueLine_text _⟩
  · intro l hl
    simp only [writtenBlock, List.mem_cons, List.not_mem_nil, or_false] at hl
    rcases hl with rfl | rfl
    · decide +kernel
    · exact intLine_not _ _ _ _ (by decide +kernel) (by decide +kernel) (by decide +kernel)

/-- Vectors `b1` and `b2` are reciprocal to `a1` and `a2` up to rounding errors. -/
def Reciprocal (a1 a2 b1 b2 : ℚ × ℚ) : Prop :=
  |a1.1 * b1.1 + a1.2 * b1.2 - 1| ≤ 1 / 10 ^ 9 ∧ |a1.1 * b2.1 + a1.2 * b2.2| ≤ 1 / 10 ^ 9 ∧
  |a2.1 * b1.1 + a2.2 * b1.2| ≤ 1 / 10 ^ 9 ∧ |a2.1 * b2.1 + a2.2 * b2.2 - 1| ≤ 1 / 10 ^ 9 ∧
  ∀ v ∈ [a1, a2, b1, b2], |v.1| ≤ 10 ∧ |v.2| ≤ 10

theorem coordinate (nk : Nat) (k1 k2 : Nat) (h1 : k1 < nk) (h2 : k2 < nk) (hnk : nk ≤ 10 ^ 6) (a b1 b2 : ℚ) (ha : |a| ≤ 10) (hb1 : |b1| ≤ 10)
    (hb2 : |b2| ≤ 10) : |roundExp 15 ((k1 * b1 + k2 * b2) / nk) * a * nk - (k1 * b1 + k2 * b2) * a| ≤ 1 / 100 := by
  have hn : (0 : ℚ) < nk := by exact_mod_cast (show 0 < nk by omega)
  have hn' : (nk : ℚ) ≤ 10 ^ 6 := by exact_mod_cast hnk
  have k1' : (k1 : ℚ) ≤ nk := by exact_mod_cast h1.le
  have k2' : (k2 : ℚ) ≤ nk := by exact_mod_cast h2.le
  set X := (k1 * b1 + k2 * b2) / (nk : ℚ) with hX
  have e : (k1 * b1 + k2 * b2 : ℚ) = X * nk := by rw [hX]; field_simp
  have hXb : |X| ≤ 20 := by
    rw [hX, abs_div, abs_of_pos hn, div_le_iff₀ hn]
    calc |(k1 * b1 + k2 * b2 : ℚ)| ≤ |k1 * b1| + |k2 * b2| := abs_add_le _ _
      _ = k1 * |b1| + k2 * |b2| := by rw [abs_mul, abs_mul, Nat.abs_cast, Nat.abs_cast]
      _ ≤ nk * 10 + nk * 10 := by gcongr
      _ = 20 * nk := by ring
  have hr := roundExp_near 15 X
  have : roundExp 15 X * a * nk - X * nk * a = (roundExp 15 X - X) * a * nk := by ring
  rw [e, this, abs_mul, abs_mul, Nat.abs_cast]
  calc |roundExp 15 X - X| * |a| * nk ≤ (20 / 2 / 10 ^ 15) * 10 * 10 ^ 6 := by
        have : |roundExp 15 X - X| ≤ 20 / 2 / 10 ^ 15 := hr.trans (by gcongr)
        gcongr
    _ ≤ 1 / 100 := by norm_num

theorem near_written (nk : Nat) (hnk : nk ≤ 10 ^ 6) (a1 a2 b1 b2 : ℚ × ℚ) (h : Reciprocal a1 a2 b1 b2) (k1 k2 : Nat) (h1 : k1 < nk) (h2 : k2 < nk) :
    Near nk a1 (roundExp 15 ((k1 * b1.1 + k2 * b2.1) / nk)) (roundExp 15 ((k1 * b1.2 + k2 * b2.2) / nk)) k1 ∧
    Near nk a2 (roundExp 15 ((k1 * b1.1 + k2 * b2.1) / nk)) (roundExp 15 ((k1 * b1.2 + k2 * b2.2) / nk)) k2 := by
  obtain ⟨r1, r2, r3, r4, h⟩ := h
  have ha1 := h a1 (by simp)
  have ha2 := h a2 (by simp)
  have hb1 := h b1 (by simp)
  have hb2 := h b2 (by simp)
  have c1 := coordinate nk k1 k2 h1 h2 hnk a1.1 b1.1 b2.1 ha1.1 hb1.1 hb2.1
  have c2 := coordinate nk k1 k2 h1 h2 hnk a1.2 b1.2 b2.2 ha1.2 hb1.2 hb2.2
  have c3 := coordinate nk k1 k2 h1 h2 hnk a2.1 b1.1 b2.1 ha2.1 hb1.1 hb2.1
  have c4 := coordinate nk k1 k2 h1 h2 hnk a2.2 b1.2 b2.2 ha2.2 hb1.2 hb2.2
  have k1' : (k1 : ℚ) ≤ 10 ^ 6 := by exact_mod_cast (by omega : k1 ≤ 10 ^ 6)
  have k2' : (k2 : ℚ) ≤ 10 ^ 6 := by exact_mod_cast (by omega : k2 ≤ 10 ^ 6)
  have small : ∀ (k : Nat) (r : ℚ), (k : ℚ) ≤ 10 ^ 6 → |r| ≤ 1 / 10 ^ 9 → |k * r| ≤ 1 / 100 := by
    intro k r hk hr
    rw [abs_mul, Nat.abs_cast]
    calc (k : ℚ) * |r| ≤ 10 ^ 6 * (1 / 10 ^ 9) := by gcongr
      _ ≤ 1 / 100 := by norm_num
  have s1 := small k1 _ k1' r1
  have s2 := small k2 _ k2' r2
  have s3 := small k1 _ k1' r3
  have s4 := small k2 _ k2' r4
  generalize roundExp 15 ((k1 * b1.1 + k2 * b2.1) / nk) = x at *
  generalize roundExp 15 ((k1 * b1.2 + k2 * b2.2) / nk) = y at *
  rw [abs_le] at c1 c2 c3 c4 s1 s2 s3 s4
  refine ⟨⟨h1, 0, ?_⟩, ⟨h2, 0, ?_⟩⟩
  · rw [abs_lt]
    push_cast
    constructor <;> linarith [c1.1, c1.2, c2.1, c2.2, s1.1, s1.2, s2.1, s2.2]
  · rw [abs_lt]
    push_cast
    constructor <;> linarith [c3.1, c3.2, c4.1, c4.2, s3.1, s3.2, s4.1, s4.2]

theorem written_describes (nk nbands : Nat) (hnk : nk ≤ 10 ^ 6) (a1 a2 b1 b2 : ℚ × ℚ) (h : Reciprocal a1 a2 b1 b2)
    (g : Nat → Nat → Nat → Nat → ℚ × ℚ) :
    (written nk nbands b1 b2 g).Describes true nk nbands a1 a2 fun k1 k2 i j => rounded (g k1 k2 i j) := by
  have hb : ∀ k1 < nk, ∀ k2 < nk, (writtenBlock nbands (k1 * nk + k2 + 1) ((k1 * b1.1 + k2 * b2.1) / nk)
      ((k1 * b1.2 + k2 * b2.2) / nk) (g k1 k2)).Describes true nk nbands a1 a2 k1 k2 fun i j => rounded (g k1 k2 i j) := by
    intro k1 h1 k2 h2
    obtain ⟨n1, n2⟩ := near_written nk hnk a1 a2 b1 b2 h k1 k2 h1 h2
    exact block_describes nk nbands _ a1 a2 _ _ k1 k2 (g k1 k2) n1 n2
  refine ⟨head_not, lineK_has, words_intLine _, mid_not, lineB_has, words_intLine _, skip_not, ?_, ?_, ?_⟩
  · simp [written, List.length_flatMap]
  · intro b hb'
    obtain ⟨k1, h1, hb'⟩ := List.mem_flatMap.1 hb'
    obtain ⟨k2, h2, rfl⟩ := List.mem_map.1 hb'
    exact ⟨k1, k2, hb k1 (List.mem_range.1 h1) k2 (List.mem_range.1 h2)⟩
  · intro k1 h1 k2 h2
    exact ⟨_, List.mem_flatMap.2 ⟨k1, List.mem_range.2 h1, List.mem_map.2 ⟨k2, List.mem_range.2 h2, rfl⟩⟩, hb k1 h1 k2 h2⟩

/-- **C133**: files written by `write_xml_files` are read by `read_xml_files` with `old = True`, with relative errors of 15 digits. -/
theorem C133_partial (size : Nat) (hsize : 0 < size) (q rep : List Nat) (nk nbands : Nat) (hnk : nk ≤ 10 ^ 6) (bands : List Int)
    (bs : List Nat) (h : bands.map (pyIndex nbands) = bs.map some) (hn : bs.Nodup) (hb : ∀ b ∈ bs, b < nbands) (a1 a2 b1 b2 : ℚ × ℚ)
    (hr : Reciprocal a1 a2 b1 b2) (g : Nat → Nat → Nat → Nat → Nat → Nat → ℚ × ℚ) :
    ∃ T, readXml size (fun iq irep => writeXml b1 b2 (.full nk nbands g) (iq - 1) (irep - 1)) q rep bands nbands nk a1 a2 true = some T ∧
      T.length = q.length ∧ ∀ x, (hx : x < q.length) → ∃ R, T[x]? = some R ∧ R.length = rep.length ∧ ∀ y, (hy : y < rep.length) →
        ∃ t, R[y]? = some t ∧ ∀ k1 < nk, ∀ k2 < nk, ∀ m < bs.length, ∀ n < bs.length, ∃ z, t k1 k2 m n = some z ∧
          |z.1 - (g q[x] rep[y] k1 k2 (bs.getD m 0) (bs.getD n 0)).1| ≤
            |(g q[x] rep[y] k1 k2 (bs.getD m 0) (bs.getD n 0)).1| / 2 / 10 ^ 15 ∧
          |z.2 - (g q[x] rep[y] k1 k2 (bs.getD m 0) (bs.getD n 0)).2| ≤
            |(g q[x] rep[y] k1 k2 (bs.getD m 0) (bs.getD n 0)).2| / 2 / 10 ^ 15 := by
  obtain ⟨T, h1, h2, h3⟩ := C133_read size hsize true (fun iq irep => written nk nbands b1 b2 (g (iq - 1) (irep - 1))) q rep nk nbands bands bs h hn hb
    a1 a2 (fun iq irep k1 k2 i j => rounded (g iq irep k1 k2 i j)) fun iq _ irep _ => written_describes nk nbands hnk a1 a2 b1 b2 hr _
  simp only [written_lines] at h1
  refine ⟨T, h1, h2, fun x hx => ?_⟩
  obtain ⟨R, h4, h5, h6⟩ := h3 x hx
  refine ⟨R, h4, h5, fun y hy => ?_⟩
  obtain ⟨t, h7, h8⟩ := h6 y hy
  exact ⟨t, h7, fun k1 hk1 k2 hk2 m hm n hn => ⟨_, h8 k1 hk1 k2 hk2 m hm n hn, roundExp_near 15 _, roundExp_near 15 _⟩⟩

/-- Hypotheses of `C133_read` and `C133_partial`: hexagonal lattice, 12 × 12 k points, last and first of three bands. -/
example (g : Nat → Nat → Nat → Nat → Nat → Nat → ℚ × ℚ) :=
  C133_partial 4 (by norm_num) [0, 2, 1] [5, 0] 12 3 (by norm_num) [-1, 0] [2, 0] rfl (by decide) (by decide) (1, 0) (-1 / 2, 866025403784 / 10 ^ 12)
    (1, 577350269190 / 10 ^ 12) (0, 1154700538379 / 10 ^ 12) (by
      refine ⟨?_, ?_, ?_, ?_, ?_⟩
      · norm_num [abs_le]
      · norm_num [abs_le]
      · norm_num [abs_le]
      · norm_num [abs_le]
      · intro v hv
        simp only [List.mem_cons, List.not_mem_nil, or_false] at hv
        rcases hv with rfl | rfl | rfl | rfl <;> norm_num [abs_le]) g

/-- **C133** (violation): no written file can be read with the default setting `old = False`: the number of k points is expected in the line of
the tag. -/
theorem C133_default_violated (nk nbands nk' nbands' : Nat) (bands : List Int) (a1 a2 b1 b2 : ℚ × ℚ) (g : Nat → Nat → Nat → Nat → ℚ × ℚ) :
    readFile false nk' nbands' bands a1 a2 (writeFile nk nbands b1 b2 g) = none := by
  have e : number false "<NUMBER_OF_K".toList (writeFile nk nbands b1 b2 g) = none := by
    rw [← written_lines, File.lines]
    unfold number
    rw [goto_skip _ (written nk nbands b1 b2 g).pre (written nk nbands b1 b2 g).tagK _ head_not lineK_has]
    have : (intag (written nk nbands b1 b2 g).tagK >>= intOf) = none := lineK_intag
    simp only [this]
    rfl
  rw [readFile, e]
  cases bandSelect nbands' bands <;> rfl

theorem goto_none (p : Str) (ls : List Str) (h : ∀ l ∈ ls, ¬ p <:+: l) : goto p ls = (none, []) := by
  induction ls with
  | nil => rfl
  | cons l ls ih => rw [goto, has_false _ _ (h l (by simp)), if_neg (by simp), ih fun l hl => h l (by simp [hl])]

theorem valueLine_not (z : ℚ × ℚ) : ¬ "<COORDINATES_XK".toList <:+: valueLine z := by
  intro h
  have : '<' ∈ valueLine z := h.subset (by decide)
  rw [valueLine, List.mem_append, List.mem_cons, List.mem_append] at this
  rcases this with h | h | h | h
  · exact padLeft_no _ (by decide) _ _ (showExp_no _ (by decide) _ _) h
  · exact absurd h (by decide)
  · exact padLeft_no _ (by decide) _ _ (showExp_no _ (by decide) _ _) h
  · exact absurd h (by decide)

/-- **C133** (violation): the array returned for a single band (`squeeze = True`) cannot be written and read again if there is more than one k
point: the axes of k points are mistaken for axes of bands. -/
theorem C133_squeeze_violated (size : Nat) (hsize : 0 < size) (iq irep nk : Nat) (hnk : 1 < nk) (a1 a2 b1 b2 : ℚ × ℚ)
    (g : Nat → Nat → Nat → Nat → ℚ × ℚ) :
    readXml size (fun iq irep => writeXml b1 b2 (.squeezed nk g) (iq - 1) (irep - 1)) [iq] [irep] [0] 1 nk a1 a2 true = none := by
  have key : readFile true nk 1 [0] a1 a2 (writeFile 1 nk b1 b2 fun _ _ => g iq irep) = none := by
    set f := written 1 nk b1 b2 fun _ _ => g iq irep with hf
    have e1 : number true "<NUMBER_OF_K".toList (writeFile 1 nk b1 b2 fun _ _ => g iq irep) = some (((1 * 1 : Nat) : Int), f.mid ++ f.tagB :: ([f.numB] ++
        (f.skip ++ (f.blocks.flatMap Block.lines ++ f.post)))) := by
      rw [← written_lines, File.lines]
      exact number_text true _ _ _ _ _ _ head_not lineK_has (words_intLine _)
    have e2 : number true "<NUMBER_OF_BANDS".toList (f.mid ++ f.tagB :: ([f.numB] ++ (f.skip ++ (f.blocks.flatMap Block.lines ++ f.post)))) =
        some ((nk : Int), f.skip ++ (f.blocks.flatMap Block.lines ++ f.post)) :=
      number_text true _ _ _ _ _ _ mid_not lineB_has (words_intLine _)
    have e3 : bandSelect 1 [0] = some [some 0] := rfl
    rw [readFile, e3, e1]
    simp only [Option.bind_eq_bind, Option.bind_some]
    rw [if_neg (by decide), e2]
    simp only [Option.bind_some]
    obtain ⟨N, hN⟩ : ∃ N, nk * nk = N + 2 := ⟨nk * nk - 2, by have := Nat.mul_le_mul hnk hnk; omega⟩
    obtain ⟨b, hb⟩ : ∃ b, b = writtenBlock nk 1 0 0 (g iq irep) := ⟨_, rfl⟩
    have e4 : f.blocks = [b] := by
      rw [hb]
      simp [hf, written]
    obtain ⟨M, hM⟩ : ∃ M, nk = M + 1 := ⟨nk - 1, by omega⟩
    obtain ⟨vs, hvs⟩ : ∃ vs, b.values = valueLine (g iq irep 0 0) :: vs ∧ ∀ l ∈ vs, ¬ "<COORDINATES_XK".toList <:+: l := by
      have hall : ∀ l ∈ b.values, ¬ "<COORDINATES_XK".toList <:+: l := by
        intro l hl
        rw [hb] at hl
        obtain ⟨j, -, hl⟩ := List.mem_flatMap.1 hl
        obtain ⟨i, -, rfl⟩ := List.mem_map.1 hl
        exact valueLine_not _
      have h0 : b.values[0]? = some (valueLine (g iq irep 0 0)) := by
        have := flatMap_getElem nk (fun j i => valueLine (g iq irep i j)) 0 0 (by omega) (by omega)
        rw [hb, writtenBlock]
        simpa using this
      cases hv : b.values with
      | nil => rw [hv] at h0; simp at h0
      | cons v vs =>
        rw [hv] at h0 hall
        refine ⟨vs, ?_, fun l hl => hall l (by simp [hl])⟩
        simpa using h0
    have hd := block_describes 1 nk 1 (1, 0) (0, 1) 0 0 0 0 (g iq irep) ⟨by norm_num, 0, by norm_num [roundExp, mantissa]⟩
      ⟨by norm_num, 0, by norm_num [roundExp, mantissa]⟩
    rw [← hb] at hd
    obtain ⟨d1, d2, ⟨x, y, z, d3, -, -⟩, d6, d7, -, -, d8⟩ := hd
    have step : ∀ t, ∃ t' , kStep true nk [some 0] a1 a2 (f.skip ++ (f.blocks.flatMap Block.lines ++ f.post)) t =
        some (vs ++ (b.after ++ f.post), t') := by
      intro t
      rw [e4, List.flatMap_singleton, Block.lines, List.append_assoc, List.cons_append, List.cons_append, List.append_assoc, List.cons_append,
        List.append_assoc, ← List.append_assoc f.skip]
      unfold kStep
      rw [goto_skip _ (f.skip ++ b.before) _ _ (fun l hl => (List.mem_append.1 hl).elim
        (skip_not l) (d1 l)) d2]
      simp only [d3]
      rw [goto_skip _ _ _ _ d6 d7, hvs.1, List.cons_append]
      refine ⟨t.set (meshIndex nk a1 x y) (meshIndex nk a2 x y) 0 0 (rounded (g iq irep 0 0)), ?_⟩
      simp only [List.flatMap_cons, List.flatMap_nil, List.map_cons, List.map_nil, List.append_nil]
      rw [valueLoop, complexOf_text true _ _ (valueLine_text _)]
      rfl
    rw [hN, kLoop]
    obtain ⟨t', ht'⟩ := step fun _ _ _ _ => none
    rw [ht']
    simp only [Option.bind_eq_bind, Option.bind_some]
    rw [kLoop]
    have : kStep true nk [some 0] a1 a2 (vs ++ (b.after ++ f.post)) t' = none := by
      unfold kStep
      rw [goto_none]
      intro l hl
      rcases List.mem_append.1 hl with hl | hl
      · exact hvs.2 l hl
      · rcases List.mem_append.1 hl with hl | hl
        · exact d8 l hl
        · exact post_not l hl
    rw [this]
    rfl
  rw [readXml, Verif.MPI.C02_parMap size hsize]
  simp only [Option.bind_eq_bind, Option.bind_some, List.map_cons, List.map_nil, List.mapM_cons, writeXml, Nat.add_sub_cancel, key]
  rfl

/-- Hypotheses of `C133_squeeze_violated`: two processes, 2 × 2 k points. -/
example (g : Nat → Nat → Nat → Nat → ℚ × ℚ) :=
  C133_squeeze_violated 2 (by norm_num) 0 0 2 (by norm_num) (1, 0) (0, 1) (1, 0) (0, 1) g

/-- A single k point makes no difference. -/
example : (writeFile 1 1 (1, 0) (0, 1) fun _ _ _ _ => (3 / 2, -1 / 3)).length = 28 ∧
    ((readFile true 1 1 [0] (1, 0) (0, 1) (writeFile 1 1 (1, 0) (0, 1) fun _ _ _ _ => (3 / 2, -1 / 3))).map fun t => t 0 0 0 0) =
      some (some (3 / 2, -3333333333333333 / 10 ^ 16)) := by
  decide +kernel

end Verif.Xml
