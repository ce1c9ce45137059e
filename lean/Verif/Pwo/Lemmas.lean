import Verif.Pwo.Output

/-! # Lines of the output of `pw.x` -/

namespace Verif.Pwo

open Verif.Text

theorem has_iff (text : Str) (s : Str) : has text s = true ↔ text <:+: s := by
  induction s with
  | nil => simp [has]
  | cons c r ih => rw [has, Bool.or_eq_true, ih, List.infix_cons_iff, List.isPrefixOf_iff_prefix]

theorem has_false (text : Str) (s : Str) (h : ¬ text <:+: s) : has text s = false := by
  rw [← Bool.not_eq_true, has_iff]
  exact h

/-- Characters of numbers in columns. -/
def numeric (c : Char) : Bool := "0123456789.- ".toList.contains c

theorem digit_numeric (d : Nat) (h : d < 10) : numeric (digitChar d) = true := by
  revert h d
  decide +kernel

theorem Digits.numeric {s : Str} (h : Digits s) : ∀ c ∈ s, numeric c = true := fun c hc => by
  obtain ⟨d, hd, rfl⟩ := h c hc
  exact digit_numeric d hd

theorem showInt_numeric (z : Int) : ∀ c ∈ showInt z, numeric c = true := by
  intro c hc
  unfold showInt at hc
  split at hc
  · rcases List.mem_cons.1 hc with rfl | hc
    · decide
    · exact Digits.numeric (showNat_digits _) c hc
  · exact Digits.numeric (showNat_digits _) c hc

theorem showFixed_numeric (d : Nat) (x : ℚ) : ∀ c ∈ showFixed d x, numeric c = true := by
  intro c hc
  simp only [showFixed, List.mem_append, List.mem_cons] at hc
  rcases hc with (hc | hc) | hc | hc
  · split at hc
    · rw [List.mem_singleton.1 hc]
      decide
    · simp at hc
  · exact Digits.numeric (showNat_digits _) c hc
  · rw [hc]
    decide
  · exact Digits.numeric (padWith_digits _ _ (showNat_digits _)) c hc

theorem field_numeric (f : Field) (h : ∀ c ∈ f.text, numeric c = true) : ∀ c ∈ fmt [f], numeric c = true := by
  intro c hc
  simp only [fmt, padLeft, padWith, List.flatMap_cons, List.flatMap_nil, List.append_nil, List.mem_append, List.mem_replicate] at hc
  rcases hc with hc | hc | hc
  · rw [hc.2]
    decide
  · rw [hc.2]
    decide
  · exact h c hc

/-- A word without numeric characters does not extend over a number. -/
theorem infix_mid (w A N B : Str) (hw : ∀ c ∈ w, numeric c = false) (hN : N ≠ []) (hn : ∀ c ∈ N, numeric c = true)
    (h : w <:+: A ++ (N ++ B)) : w <:+: A ∨ w <:+: B := by
  have key : ∀ t : Str, t <:+: w → t <:+: N → t = [] := by
    intro t h1 h2
    cases t with
    | nil => rfl
    | cons c t =>
      have e1 := hw c (h1.mem (by simp))
      rw [hn c (h2.mem (by simp))] at e1
      exact absurd e1 (by decide)
  rcases List.infix_append_iff.1 h with h | h | ⟨l1, l2, rfl, h1, h2⟩
  · exact Or.inl h
  · rcases List.infix_append_iff.1 h with h | h | ⟨l1, l2, rfl, h1, h2⟩
    · rw [key w (List.infix_refl _) h]
      exact Or.inl (List.nil_infix)
    · exact Or.inr h
    · rw [key l1 (List.prefix_append _ _).isInfix h1.isInfix]
      exact Or.inr h2.isInfix
  · obtain ⟨n, N', rfl⟩ := List.exists_cons_of_ne_nil hN
    cases l2 with
    | nil =>
      rw [List.append_nil]
      exact Or.inl h1.isInfix
    | cons c l2 =>
      rw [List.cons_append, List.cons_prefix_cons] at h2
      have e1 := hw c (by simp)
      rw [h2.1, hn n (by simp)] at e1
      exact absurd e1 (by decide)

theorem fmt_ne (f : Field) (h : f.text ≠ []) : fmt [f] ≠ [] := by
  simp [fmt, padLeft, padWith, h]

/-- A line with a number does not contain a keyword if a word of the keyword (without numeric characters) is neither in the text
before nor in the text after the number. -/
theorem has_num (k w a : String) (f : Field) (b : String) (hf : f.text ≠ []) (hn : ∀ c ∈ f.text, numeric c = true)
    (hk : w.toList <:+: k.toList) (hw : ∀ c ∈ w.toList, numeric c = false) (ha : ¬ w.toList <:+: a.toList)
    (hb : ¬ w.toList <:+: b.toList ++ ['\n']) : has k.toList (numLine a f b) = false := by
  apply has_false
  intro h
  rcases infix_mid w.toList _ _ _ hw (fmt_ne f hf) (field_numeric f hn) (hk.trans h) with h | h
  · exact ha h
  · exact hb h

theorem has_self (k a : String) (f : Field) (b : String) (h : k.toList <:+: a.toList) : has k.toList (numLine a f b) = true := by
  rw [has_iff]
  exact h.trans (List.prefix_append _ _).isInfix

/-! ### Words -/

theorem wordsAux_append (A acc s : Str) : wordsAux acc (A ++ ' ' :: s) = wordsAux acc A ++ wordsAux [] s := by
  induction A generalizing acc with
  | nil =>
    have e : isSpace ' ' = true := rfl
    simp only [List.nil_append, wordsAux, e, if_true]
    split <;> simp
  | cons c A ih =>
    rw [List.cons_append, wordsAux, wordsAux]
    split
    · split
      · exact ih _
      · rw [ih, List.cons_append]
    · exact ih _

theorem words_append (A s : Str) : words (A ++ ' ' :: s) = words A ++ words s := wordsAux_append A [] s

/-- The words of a line with a number which is separated from the text before. -/
theorem words_text (A r : Str) (l : List Field) (hl : l ≠ []) (h1 : ∀ f ∈ l, Solid f.text) (h2 : ∀ f ∈ l, f.Free)
    (hr : ∀ a : Str, a ≠ [] → wordsAux a r = a :: wordsAux [] r) :
    words (A ++ (fmt l ++ r)) = words A ++ (l.map Field.text ++ words r) := by
  obtain ⟨f, l, rfl⟩ := List.exists_cons_of_ne_nil hl
  have hpos : 0 < f.sp + (f.width - f.text.length) := by
    have := h2 f (by simp)
    unfold Field.Free at this
    omega
  obtain ⟨n, hn⟩ : ∃ n, f.sp + (f.width - f.text.length) = n + 1 := ⟨_, (Nat.succ_pred_eq_of_pos hpos).symm⟩
  have e : fmt (f :: l) ++ r = ' ' :: (List.replicate n ' ' ++ (f.text ++ (fmt l ++ r))) := by
    rw [← List.cons_append, ← List.replicate_succ, ← hn]
    simp only [fmt, padLeft, padWith, List.replicate_add, List.flatMap_cons, List.append_assoc]
  rw [e, words_append]
  congr 1
  unfold words
  rw [words_space, wordsAux_solid _ (h1 f (by simp)).2, List.nil_append,
    wordsAux_fmt l (fun f hf => h1 f (by simp [hf])) (fun f hf => h2 f (by simp [hf])) _ _ (h1 f (by simp)).1 hr]
  simp

theorem space_end (s : Str) (a : Str) (h : a ≠ []) : wordsAux a (' ' :: s) = a :: wordsAux [] (' ' :: s) := by
  simp [wordsAux, isSpace, h]

theorem words_num (a : String) (f : Field) (b : String) (h1 : Solid f.text) (h2 : f.Free)
    (hb : b = "" ∨ ∃ t, b = ' '.toString ++ t) : words (numLine a f b) = words a.toList ++ (f.text :: words (b.toList ++ ['\n'])) := by
  rw [numLine, words_text _ _ [f] (by simp) (by simpa using h1) (by simpa using h2)]
  · rfl
  · rcases hb with rfl | ⟨t, rfl⟩
    · exact newline_end
    · rw [String.toList_append]
      exact space_end _

theorem word_last (A : List Str) (x : Str) : word (A ++ [x]) (-1) = .ok x := by
  have e : pyIndex (A ++ [x]).length (-1) = some A.length := by
    rw [pyIndex, if_neg (by omega), if_pos (by simp), List.length_append, List.length_singleton]
    congr 1
    omega
  rw [word, e]
  simp

theorem word_last2 (A : List Str) (x y : Str) : word (A ++ [x, y]) (-2) = .ok x := by
  have e : pyIndex (A ++ [x, y]).length (-2) = some A.length := by
    rw [pyIndex, if_neg (by omega), if_pos (by simp), List.length_append, List.length_cons, List.length_singleton]
    congr 1
    omega
  rw [word, e]
  simp

theorem word_at (A : List Str) (x : Str) (B : List Str) (n : Nat) (h : A.length = n) : word (A ++ x :: B) (n : Int) = .ok x := by
  have e : pyIndex (A ++ x :: B).length n = some n := by
    rw [pyIndex, if_pos (by simp [← h])]
    simp
  rw [word, e]
  simp [← h]

theorem float_fixed (d : Nat) (hd : 0 < d) (x : ℚ) : float (showFixed d x) = .ok (roundTo d x) := by
  rw [float, readFloat_showFixed d hd]

theorem int_show (z : Int) : int (showInt z) = .ok z := by rw [int, readInt_showInt]

theorem floatAt_last (a : String) (sp w d : Nat) (hd : 0 < d) (x : ℚ) (h : (fFixed sp w d x).Free) :
    floatAt (numLine a (fFixed sp w d x) "") (-1) = .ok (roundTo d x) := by
  rw [floatAt, words_num _ _ _ (showFixed_solid d x) h (Or.inl rfl)]
  exact (congrArg (· >>= float) (word_last _ _)).trans (float_fixed d hd x)

theorem floatAt_last2 (a b : String) (sp w d : Nat) (hd : 0 < d) (x : ℚ) (h : (fFixed sp w d x).Free)
    (hb : ∃ t, b = ' '.toString ++ t) (y : Str) (hy : words (b.toList ++ ['\n']) = [y]) :
    floatAt (numLine a (fFixed sp w d x) b) (-2) = .ok (roundTo d x) := by
  rw [floatAt, words_num _ _ _ (showFixed_solid d x) h (Or.inr hb), hy]
  exact (congrArg (· >>= float) (word_last2 _ _ _)).trans (float_fixed d hd x)

theorem intAt_last (a : String) (sp w : Nat) (z : Int) (h : (fInt sp w z).Free) :
    intAt (numLine a (fInt sp w z) "") (-1) = .ok z := by
  rw [intAt, words_num _ _ _ (showInt_solid z) h (Or.inl rfl)]
  exact (congrArg (· >>= int) (word_last _ _)).trans (int_show z)

theorem intAt_at (a b : String) (sp w : Nat) (z : Int) (h : (fInt sp w z).Free) (hb : b = "" ∨ ∃ t, b = ' '.toString ++ t) (n : Nat)
    (ha : (words a.toList).length = n) : intAt (numLine a (fInt sp w z) b) n = .ok z := by
  rw [intAt, words_num _ _ _ (showInt_solid z) h hb]
  exact (congrArg (· >>= int) (word_at _ _ _ n ha)).trans (int_show z)

/-! ### Energies -/

theorem free_band (x : ℚ) (h : -99 ≤ x ∧ x ≤ 999) : (fFixed 0 9 4 x).Free := by
  right
  show (showFixed 4 x).length < 9
  rcases le_or_gt 0 x with h0 | h0
  · have := (showFixed_length 4 3 (by norm_num) (by norm_num) x (by rw [abs_of_nonneg h0]; norm_num; exact h.2)).2 h0
    omega
  · have := (showFixed_length 4 2 (by norm_num) (by norm_num) x (by rw [abs_of_neg h0]; norm_num; linarith [h.1])).1
    omega

theorem words_row (l : List ℚ) (h : ∀ x ∈ l, -99 ≤ x ∧ x ≤ 999) :
    (words ("  ".toList ++ (fmt (l.map (fFixed 0 9 4)) ++ ['\n']))).mapM readFloat = some (l.map (roundTo 4)) := by
  have e : words ("  ".toList ++ (fmt (l.map (fFixed 0 9 4)) ++ ['\n'])) = l.map (showFixed 4) := by
    rcases eq_or_ne l [] with rfl | hl
    · rfl
    rw [words_text _ _ _ (by simpa using hl) (by simp [fFixed, showFixed_solid]) _ newline_end]
    · have : words ("  ".toList) = [] := by decide
      rw [this]
      simp [fFixed, words, wordsAux, isSpace]
    · intro f hf
      obtain ⟨x, hx, rfl⟩ := List.mem_map.1 hf
      exact free_band x (h x hx)
  rw [e]
  exact mapM_map _ _ _ _ fun x _ => readFloat_showFixed 4 (by norm_num) x

theorem rowLoop_rows (e : List ℚ) (h : ∀ x ∈ e, -99 ≤ x ∧ x ≤ 999) (rest : List Str) (m r : Nat)
    (hm : r + m = (e.length + 7) / 8) :
    rowLoop e.length ((e.take (8 * r)).map (roundTo 4)) (((List.range' r m).map fun r => "  ".toList ++
      (fmt (((e.drop (8 * r)).take 8).map (fFixed 0 9 4)) ++ ['\n'])) ++ rest) = .ok (e.map (roundTo 4), rest) := by
  induction m generalizing r with
  | zero =>
    have hr : e.length ≤ 8 * r := by omega
    rw [List.take_of_length_le hr]
    cases rest <;> simp [rowLoop]
  | succ m ih =>
    have hr : 8 * r < e.length := by omega
    rw [List.range'_succ, List.map_cons, List.cons_append, rowLoop, if_pos (by simp; omega),
      words_row _ fun x hx => h x (List.mem_of_mem_drop (List.mem_of_mem_take hx))]
    simp only
    rw [← ih (r + 1) (by omega), ← List.map_append, ← List.take_add]
    rfl

theorem rowLoop_ok (e : List ℚ) (h : ∀ x ∈ e, -99 ≤ x ∧ x ≤ 999) (rest : List Str) :
    rowLoop e.length [] (rows e ++ rest) = .ok (e.map (roundTo 4), rest) := by
  have := rowLoop_rows e h rest ((e.length + 7) / 8) 0 (by omega)
  rw [rows, List.range_eq_range']
  simpa using this

theorem kLoop_ok (Ns : Nat) (b : List ((Str × Str × Str) × List ℚ)) (h : ∀ r ∈ b, ∀ x ∈ r.2, -99 ≤ x ∧ x ≤ 999)
    (hn : ∀ r ∈ b, r.2.length = Ns) (acc : List (List ℚ)) (rest : List Str) :
    kLoop Ns b.length acc ((b.flatMap fun r => r.1.1 :: r.1.2.1 :: r.1.2.2 :: rows r.2) ++ rest) =
      .ok (acc ++ b.map fun r => r.2.map (roundTo 4), rest) := by
  induction b generalizing acc with
  | nil => simp [kLoop]
  | cons r b ih =>
    rw [List.length_cons, kLoop, if_neg (by simp)]
    have e := rowLoop_ok r.2 (h r (by simp)) ((b.flatMap fun r => r.1.1 :: r.1.2.1 :: r.1.2.2 :: rows r.2) ++ rest)
    rw [hn r (by simp)] at e
    simp only [List.flatMap_cons, List.cons_append, List.drop_succ_cons, List.drop_zero, List.append_assoc]
    rw [e]
    simp only
    rw [ih (fun r hr => h r (by simp [hr])) (fun r hr => hn r (by simp [hr]))]
    simp

end Verif.Pwo
