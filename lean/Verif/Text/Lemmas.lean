import Mathlib.Tactic.Linarith
import Mathlib.Tactic.Positivity
import Mathlib.Tactic.FieldSimp
import Mathlib.Tactic.Ring
import Mathlib.Tactic.NormNum
import Verif.Text.Model

/-!
# Numbers survive being written and read
-/

namespace Verif.Text

/-! ### Words -/

/-- Text without white space. -/
def Solid (s : Str) : Prop := s ≠ [] ∧ ∀ c ∈ s, isSpace c = false

theorem wordsAux_solid (s : Str) (h : ∀ c ∈ s, isSpace c = false) (acc r : Str) :
    wordsAux acc (s ++ r) = wordsAux (acc ++ s) r := by
  induction s generalizing acc with
  | nil => simp
  | cons c s ih =>
    have hc := h c (by simp)
    rw [List.cons_append, wordsAux, hc]
    simp only [Bool.false_eq_true, if_false]
    rw [ih fun d hd => h d (by simp [hd])]
    simp

theorem wordsAux_space (acc s : Str) (h : acc ≠ []) : wordsAux acc (' ' :: s) = acc :: wordsAux [] s := by
  rw [wordsAux]
  simp [isSpace, h]

theorem words_space (n : Nat) (s : Str) : wordsAux [] (List.replicate n ' ' ++ s) = wordsAux [] s := by
  induction n with
  | zero => simp
  | succ n ih =>
    rw [List.replicate_succ, List.cons_append, wordsAux]
    simp [isSpace, ih]

theorem wordsAux_spaces (n : Nat) (acc s : Str) (h : acc ≠ []) (hn : 0 < n) :
    wordsAux acc (List.replicate n ' ' ++ s) = acc :: wordsAux [] s := by
  obtain ⟨m, rfl⟩ : ∃ m, n = m + 1 := ⟨n - 1, by omega⟩
  rw [List.replicate_succ, List.cons_append, wordsAux_space _ _ h, words_space]

/-- Fields that are separated from the preceding one. -/
def Field.Free (f : Field) : Prop := 0 < f.sp ∨ f.text.length < f.width

theorem wordsAux_fmt (l : List Field) (h1 : ∀ f ∈ l, Solid f.text) (h2 : ∀ f ∈ l, f.Free) (acc r : Str)
    (hacc : acc ≠ []) (hr : ∀ a : Str, a ≠ [] → wordsAux a r = a :: wordsAux [] r) :
    wordsAux acc (fmt l ++ r) = acc :: (l.map Field.text ++ wordsAux [] r) := by
  induction l generalizing acc with
  | nil => simpa [fmt] using hr acc hacc
  | cons f l ih =>
    have hs := h1 f (by simp)
    have e : fmt (f :: l) ++ r = List.replicate (f.sp + (f.width - f.text.length)) ' ' ++ (f.text ++ (fmt l ++ r)) := by
      simp only [fmt, padLeft, padWith, List.replicate_add, List.flatMap_cons, List.append_assoc]
    have hpos : 0 < f.sp + (f.width - f.text.length) := by
      have := h2 f (by simp)
      unfold Field.Free at this
      omega
    rw [e, wordsAux_spaces _ _ _ hacc hpos, wordsAux_solid _ hs.2, List.nil_append,
      ih (fun f hf => h1 f (by simp [hf])) (fun f hf => h2 f (by simp [hf])) _ hs.1]
    simp

/-- A line of fields, all but the first of which are separated from the preceding one, is split into the fields. -/
theorem words_fmt_append (l : List Field) (h1 : ∀ f ∈ l, Solid f.text) (h2 : ∀ f ∈ l.tail, f.Free) (r : Str)
    (hr : ∀ a : Str, a ≠ [] → wordsAux a r = a :: wordsAux [] r) :
    words (fmt l ++ r) = l.map Field.text ++ words r := by
  unfold words
  cases l with
  | nil => simp [fmt]
  | cons f l =>
    have hs := h1 f (by simp)
    have e : fmt (f :: l) ++ r = List.replicate (f.sp + (f.width - f.text.length)) ' ' ++ (f.text ++ (fmt l ++ r)) := by
      simp only [fmt, padLeft, padWith, List.replicate_add, List.flatMap_cons, List.append_assoc]
    rw [e, words_space, wordsAux_solid _ hs.2, List.nil_append,
      wordsAux_fmt l (fun f hf => h1 f (by simp [hf])) h2 _ _ hs.1 hr]
    simp

theorem newline_end (a : Str) (h : a ≠ []) : wordsAux a ['\n'] = a :: wordsAux [] ['\n'] := by
  simp [wordsAux, isSpace, h]

theorem words_fmt (l : List Field) (h1 : ∀ f ∈ l, Solid f.text) (h2 : ∀ f ∈ l.tail, f.Free) :
    words (fmt l ++ ['\n']) = l.map Field.text := by
  rw [words_fmt_append l h1 h2 _ newline_end]
  simp [words, wordsAux, isSpace]

/-! ### Lines -/

theorem linesAux_line (s : Str) (h : '\n' ∉ s) (acc r : Str) :
    linesAux acc (s ++ '\n' :: r) = (acc ++ s ++ ['\n']) :: linesAux [] r := by
  induction s generalizing acc with
  | nil => simp [linesAux]
  | cons c s ih =>
    have hc : c ≠ '\n' := fun e => h (by simp [e])
    rw [List.cons_append, linesAux, if_neg hc, ih fun e => h (by simp [e])]
    simp

theorem tokens_line (s : Str) (h : '\n' ∉ s) (r : Str) :
    tokens (s ++ '\n' :: r) = words (s ++ ['\n']) :: tokens r := by
  unfold tokens lines
  rw [linesAux_line s h]
  simp

theorem tokens_nil : tokens [] = [] := rfl

theorem Solid.newline {s : Str} (h : Solid s) : '\n' ∉ s := fun e => by
  have := h.2 _ e
  simp [isSpace] at this

theorem fmt_newline (l : List Field) (h : ∀ f ∈ l, Solid f.text) : '\n' ∉ fmt l := by
  unfold fmt padLeft padWith
  simp only [List.mem_flatMap, List.mem_append, List.mem_replicate, not_exists, not_and]
  rintro f hf (h' | h' | h')
  · exact absurd h'.2 (by decide)
  · exact absurd h'.2 (by decide)
  · exact (h f hf).newline h'

/-- A formatted line followed by other text. -/
theorem tokens_fmt (l : List Field) (h1 : ∀ f ∈ l, Solid f.text) (h2 : ∀ f ∈ l.tail, f.Free) (r : Str) :
    tokens (fmt l ++ '\n' :: r) = l.map Field.text :: tokens r := by
  rw [tokens_line _ (fmt_newline l h1), words_fmt l h1 h2]

theorem fmt_append (l m : List Field) : fmt (l ++ m) = fmt l ++ fmt m := by simp [fmt]

/-! ### Integers -/

/-- Sequence of digits. -/
def Digits (s : Str) : Prop := ∀ c ∈ s, ∃ d, d < 10 ∧ c = digitChar d

theorem digitVal_digitChar (d : Nat) (h : d < 10) : digitVal (digitChar d) = some d := by
  have : ∀ d : Fin 10, digitVal (digitChar d) = some d := by decide
  exact this ⟨d, h⟩

theorem digit_props (d : Nat) (h : d < 10) : isSpace (digitChar d) = false ∧ digitChar d ≠ '.' ∧ digitChar d ≠ '-' ∧
    digitChar d ≠ '+' ∧ isExp (digitChar d) = false := by
  have : ∀ d : Fin 10, isSpace (digitChar d) = false ∧ digitChar d ≠ '.' ∧ digitChar d ≠ '-' ∧
    digitChar d ≠ '+' ∧ isExp (digitChar d) = false := by decide
  exact this ⟨d, h⟩

theorem showAux_digits (f n : Nat) : Digits (showAux f n) := by
  induction f generalizing n with
  | zero =>
    intro c hc
    rw [showAux, List.mem_singleton] at hc
    exact ⟨_, Nat.mod_lt _ (by omega), hc⟩
  | succ f ih =>
    intro c hc
    rw [showAux] at hc
    split at hc
    · next h =>
      rw [List.mem_singleton] at hc
      exact ⟨_, h, hc⟩
    · rw [List.mem_append, List.mem_singleton] at hc
      rcases hc with hc | hc
      · exact ih _ _ hc
      · exact ⟨_, Nat.mod_lt _ (by omega), hc⟩

theorem showNat_digits (n : Nat) : Digits (showNat n) := showAux_digits _ _

theorem showAux_ne (f n : Nat) : showAux f n ≠ [] := by
  cases f <;> rw [showAux]
  · simp
  · split <;> simp

theorem showNat_ne (n : Nat) : showNat n ≠ [] := showAux_ne _ _

theorem Digits.solid {s : Str} (h : Digits s) (hn : s ≠ []) : Solid s :=
  ⟨hn, fun c hc => by
    obtain ⟨d, hd, rfl⟩ := h c hc
    exact (digit_props d hd).1⟩

theorem Digits.append {s t : Str} (hs : Digits s) (ht : Digits t) : Digits (s ++ t) := fun c hc => by
  rw [List.mem_append] at hc
  exact hc.elim (hs c) (ht c)

theorem readDigits_append (acc : Nat) (s t : Str) :
    readDigits acc (s ++ t) = (readDigits acc s).bind fun a => readDigits a t := by
  induction s generalizing acc with
  | nil => rfl
  | cons c s ih =>
    rw [List.cons_append, readDigits, readDigits]
    cases digitVal c with
    | none => rfl
    | some d => exact ih _

theorem readDigits_showAux (f n : Nat) (h : n ≤ f) : readDigits 0 (showAux f n) = some n := by
  induction f generalizing n with
  | zero =>
    obtain rfl : n = 0 := by omega
    decide
  | succ f ih =>
    rw [showAux]
    split
    · next h' => simp [readDigits, digitVal_digitChar n h']
    · next h' =>
      rw [readDigits_append, ih _ (by omega)]
      simp only [Option.bind_some, readDigits, digitVal_digitChar _ (Nat.mod_lt n (by omega : 10 > 0))]
      congr 1
      omega

theorem readDigits_showNat (n : Nat) : readDigits 0 (showNat n) = some n := readDigits_showAux n n le_rfl

theorem readNat_showNat (n : Nat) : readNat (showNat n) = some n := by
  rw [readNat, if_neg (showNat_ne n), readDigits_showNat]

theorem sign_digits (s : Str) (h : Digits s) : sign s = (false, s) := by
  cases s with
  | nil => rfl
  | cons c s =>
    obtain ⟨d, hd, e⟩ := h c (by simp)
    have hp := digit_props d hd
    rw [← e] at hp
    unfold sign
    split
    · next h1 => exact absurd (List.cons.inj h1).1 hp.2.2.1
    · next h1 => exact absurd (List.cons.inj h1).1 hp.2.2.2.1
    · rfl

/-- Integers can be read back. -/
theorem readInt_showInt (z : Int) : readInt (showInt z) = some z := by
  unfold readInt showInt
  split
  · next h =>
    simp only [sign, readNat_showNat, Option.map_some, if_true, Option.some.injEq]
    omega
  · next h =>
    rw [sign_digits _ (showNat_digits _)]
    simp only [readNat_showNat, Option.map_some, Bool.false_eq_true, if_false, Option.some.injEq]
    omega

theorem showInt_solid (z : Int) : Solid (showInt z) := by
  unfold showInt
  have h := (showNat_digits z.natAbs).solid (showNat_ne _)
  split
  · refine ⟨by simp, fun c hc => ?_⟩
    rw [List.mem_cons] at hc
    rcases hc with rfl | hc
    · decide
    · exact h.2 c hc
  · exact h

theorem showAux_length (f n k : Nat) (hk : 0 < k) (h : n < 10 ^ k) : (showAux f n).length ≤ k := by
  induction f generalizing n k with
  | zero => simpa [showAux] using Nat.one_le_iff_ne_zero.2 hk.ne'
  | succ f ih =>
    rw [showAux]
    split
    · simpa using Nat.one_le_iff_ne_zero.2 hk.ne'
    · next h' =>
      obtain ⟨k, rfl⟩ : ∃ m, k = m + 1 := ⟨k - 1, by omega⟩
      have hk' : 0 < k := by
        by_contra hk0
        obtain rfl : k = 0 := by omega
        simp at h
        omega
      rw [List.length_append, List.length_singleton]
      have := ih (n / 10) k hk' (by rw [Nat.div_lt_iff_lt_mul (by omega)]; rwa [pow_succ] at h)
      omega

theorem showNat_length (n k : Nat) (hk : 0 < k) (h : n < 10 ^ k) : (showNat n).length ≤ k := showAux_length _ _ _ hk h

theorem showInt_length (z : Int) (k : Nat) (hk : 0 < k) (h1 : -10 ^ k < z) (h2 : z < 10 ^ (k + 1)) :
    (showInt z).length ≤ k + 1 := by
  unfold showInt
  split
  · next h =>
    have : (showNat z.natAbs).length ≤ k := showNat_length _ _ hk (by
      zify
      rw [abs_of_neg h]
      omega)
    simpa using this
  · next h =>
    refine showNat_length _ _ (by omega) ?_
    zify
    rw [abs_of_nonneg (by omega)]
    exact h2

/-! ### Rounding -/

theorem roundEven_near (x : ℚ) : |(roundEven x : ℚ) - x| ≤ 1 / 2 := by
  have h1 := Int.fract_nonneg x
  have h2 := Int.fract_lt_one x
  have h3 : x = ⌊x⌋ + Int.fract x := (Int.floor_add_fract x).symm
  unfold roundEven
  rw [abs_le]
  split_ifs <;> push_cast <;> constructor <;> linarith

theorem roundEven_nonneg (x : ℚ) (h : 0 ≤ x) : 0 ≤ roundEven x := by
  have : 0 ≤ ⌊x⌋ := Int.floor_nonneg.2 h
  unfold roundEven
  split_ifs <;> omega

theorem roundEven_le (x : ℚ) (n : ℤ) (h : x ≤ n) : roundEven x ≤ n := by
  have h1 := roundEven_near x
  rw [abs_le] at h1
  by_contra hc
  push Not at hc
  have h2 : (n : ℚ) + 1 ≤ roundEven x := by exact_mod_cast hc
  linarith [h1.2]

theorem le_roundEven (x : ℚ) (n : ℤ) (h : (n : ℚ) ≤ x) : n ≤ roundEven x := by
  have h1 := roundEven_near x
  rw [abs_le] at h1
  by_contra hc
  push Not at hc
  have h2 : (roundEven x : ℚ) + 1 ≤ n := by exact_mod_cast hc
  linarith [h1.1]

theorem roundEven_int (n : ℤ) : roundEven n = n :=
  le_antisymm (roundEven_le _ _ le_rfl) (le_roundEven _ _ le_rfl)

theorem natAbs_roundEven (x : ℚ) (h : 0 ≤ x) : (((roundEven x).natAbs : ℕ) : ℚ) = roundEven x := by
  have := roundEven_nonneg x h
  have e : (((roundEven x).natAbs : ℕ) : ℤ) = roundEven x := Int.natAbs_of_nonneg this
  calc (((roundEven x).natAbs : ℕ) : ℚ) = ((((roundEven x).natAbs : ℕ) : ℤ) : ℚ) := (Int.cast_natCast _).symm
    _ = roundEven x := by rw [e]

/-! ### Fixed-point numbers -/

theorem padWith_digits (d : Nat) (s : Str) (h : Digits s) : Digits (padWith '0' d s) := by
  unfold padWith
  refine Digits.append (fun c hc => ?_) h
  exact ⟨0, by omega, (List.mem_replicate.1 hc).2⟩

theorem padWith_length (c : Char) (d : Nat) (s : Str) (h : s.length ≤ d) : (padWith c d s).length = d := by
  unfold padWith
  rw [List.length_append, List.length_replicate]
  omega

theorem readDigits_zeros (n : Nat) (s : Str) : readDigits 0 (List.replicate n '0' ++ s) = readDigits 0 s := by
  induction n with
  | zero => rfl
  | succ n ih =>
    rw [List.replicate_succ, List.cons_append, readDigits]
    have : digitVal '0' = some 0 := by decide
    rw [this]
    exact ih

theorem takeWhile_append {p : Char → Bool} (s : Str) (c : Char) (t : Str) (h : ∀ x ∈ s, p x = true) (hc : p c = false) :
    (s ++ c :: t).takeWhile p = s ∧ (s ++ c :: t).dropWhile p = c :: t := by
  induction s with
  | nil => simp [hc]
  | cons x s ih =>
    have hx := h x (by simp)
    obtain ⟨h1, h2⟩ := ih fun y hy => h y (by simp [hy])
    constructor
    · simp [hx, h1]
    · simp [hx, h2]

theorem takeWhile_all {p : Char → Bool} (s : Str) (h : ∀ x ∈ s, p x = true) : s.takeWhile p = s ∧ s.dropWhile p = [] := by
  induction s with
  | nil => simp
  | cons x s ih =>
    have hx := h x (by simp)
    obtain ⟨h1, h2⟩ := ih fun y hy => h y (by simp [hy])
    constructor
    · simp [hx, h1]
    · simp [hx, h2]

/-- Integer part and decimals. -/
theorem readMantissa_point (d z : Nat) (hd : 0 < d) :
    readMantissa (showNat (z / 10 ^ d) ++ '.' :: padWith '0' d (showNat (z % 10 ^ d))) = some ((z : ℚ) / 10 ^ d) := by
  have hi := showNat_digits (z / 10 ^ d)
  have ht := takeWhile_append (p := (· ≠ '.')) (showNat (z / 10 ^ d)) '.' (padWith '0' d (showNat (z % 10 ^ d)))
    (fun c hc => by
      obtain ⟨x, hx, rfl⟩ := hi c hc
      simpa using (digit_props x hx).2.1) (by simp)
  have hl : (padWith '0' d (showNat (z % 10 ^ d))).length = d :=
    padWith_length _ _ _ (showNat_length _ _ hd (Nat.mod_lt _ (by positivity)))
  unfold readMantissa
  simp only [ht.1, ht.2, List.tail_cons]
  rw [if_neg fun h => showNat_ne _ h.1, readDigits_showNat, hl]
  have h3 : readDigits 0 (padWith '0' d (showNat (z % 10 ^ d))) = some (z % 10 ^ d) := by
    unfold padWith
    rw [readDigits_zeros, readDigits_showNat]
  rw [h3]
  simp only [Option.some.injEq]
  have h4 : (z : ℚ) = ((z / 10 ^ d : ℕ) : ℚ) * 10 ^ d + ((z % 10 ^ d : ℕ) : ℚ) := by
    have := Nat.div_add_mod z (10 ^ d)
    have e : ((10 ^ d * (z / 10 ^ d) + z % 10 ^ d : ℕ) : ℚ) = z := by rw [this]
    push_cast at e ⊢
    linarith
  have h5 : (10 : ℚ) ^ d ≠ 0 := by positivity
  rw [eq_div_iff h5, add_mul, div_mul_cancel₀ _ h5]
  exact h4.symm

/-- Value of the decimal representation. -/
def roundTo (d : Nat) (x : ℚ) : ℚ := (if x < 0 then -1 else 1) * ((roundEven (|x| * 10 ^ d) : ℚ) / 10 ^ d)

theorem sign_prefix (x : ℚ) (s : Str) (h : Digits s) (hs : s ≠ []) (t : Str) :
    sign ((if x < 0 then ['-'] else []) ++ s ++ t) = (decide (x < 0), s ++ t) := by
  split
  · next h => simp [sign, h]
  · next h' =>
    rw [List.nil_append]
    cases s with
    | nil => exact absurd rfl hs
    | cons c s =>
      obtain ⟨d, hd, e⟩ := h c (by simp)
      have hp := digit_props d hd
      rw [← e] at hp
      rw [List.cons_append, decide_eq_false h']
      unfold sign
      split
      · next h1 => exact absurd (List.cons.inj h1).1 hp.2.2.1
      · next h1 => exact absurd (List.cons.inj h1).1 hp.2.2.2.1
      · rfl

theorem notExp_point (d z : Nat) : ∀ c ∈ showNat (z / 10 ^ d) ++ '.' :: padWith '0' d (showNat (z % 10 ^ d)),
    (!isExp c) = true := by
  intro c hc
  rw [List.mem_append, List.mem_cons] at hc
  rcases hc with hc | rfl | hc
  · obtain ⟨x, hx, rfl⟩ := showNat_digits _ c hc
    simp [(digit_props x hx).2.2.2.2]
  · decide
  · obtain ⟨x, hx, rfl⟩ := padWith_digits d _ (showNat_digits _) c hc
    simp [(digit_props x hx).2.2.2.2]

theorem readFloat_showFixed (d : Nat) (hd : 0 < d) (x : ℚ) : readFloat (showFixed d x) = some (roundTo d x) := by
  unfold readFloat showFixed
  simp only
  rw [sign_prefix x _ (showNat_digits _) (showNat_ne _)]
  have ht := takeWhile_all (p := fun c => !isExp c) _ (notExp_point d (roundEven (|x| * 10 ^ d)).natAbs)
  simp only [ht.1, ht.2, if_true]
  rw [readMantissa_point d _ hd, natAbs_roundEven _ (by positivity)]
  simp only [zpow_zero, mul_one, decide_eq_true_eq, roundTo]

/-- Fixed-point numbers are read with an error of at most half a unit of the last decimal place. -/
theorem roundTo_near (d : Nat) (x : ℚ) : |roundTo d x - x| ≤ 1 / 2 / 10 ^ d := by
  have h := roundEven_near (|x| * 10 ^ d)
  have hp : (0 : ℚ) < 10 ^ d := by positivity
  have e : ∀ y : ℚ, y - |x| = (y * 10 ^ d - |x| * 10 ^ d) / 10 ^ d := fun y => by
    rw [← sub_mul, mul_div_assoc, div_self hp.ne', mul_one]
  have e2 : |roundTo d x - x| = |(roundEven (|x| * 10 ^ d) : ℚ) / 10 ^ d - (|x|)| := by
    unfold roundTo
    split
    · next hx =>
      rw [← abs_neg]
      congr 1
      rw [abs_of_neg hx]
      ring
    · next hx =>
      congr 1
      rw [abs_of_nonneg (not_lt.1 hx), one_mul]
  rw [e2, e, div_mul_cancel₀ _ hp.ne', abs_div, abs_of_pos hp]
  gcongr

/-- Numbers with no more than `d` decimals are read exactly. -/
theorem roundTo_exact (d : Nat) (n : ℤ) : roundTo d (n / 10 ^ d) = n / 10 ^ d := by
  unfold roundTo
  have hp : (0 : ℚ) < 10 ^ d := by positivity
  have e : |(n : ℚ) / 10 ^ d| * 10 ^ d = ((|n| : ℤ) : ℚ) := by
    rw [abs_div, abs_of_pos hp, div_mul_cancel₀ _ hp.ne']
    push_cast
    rfl
  rw [e, roundEven_int]
  push_cast
  split
  · next h =>
    rw [div_lt_iff₀ hp, zero_mul] at h
    rw [abs_of_neg h]
    ring
  · next h =>
    rw [div_lt_iff₀ hp, zero_mul, not_lt] at h
    rw [abs_of_nonneg h]
    ring

theorem point_solid (d z : Nat) (x : ℚ) (t : Str) (ht : ∀ c ∈ t, isSpace c = false) :
    Solid ((if x < 0 then ['-'] else []) ++ showNat (z / 10 ^ d) ++ '.' :: padWith '0' d (showNat (z % 10 ^ d)) ++ t) := by
  refine ⟨by simp, fun c hc => ?_⟩
  simp only [List.mem_append, List.mem_cons] at hc
  rcases hc with ((hc | hc) | rfl | hc) | hc
  · split at hc
    · rw [List.mem_singleton] at hc
      subst hc
      decide
    · simp at hc
  · exact ((showNat_digits _).solid (showNat_ne _)).2 c hc
  · decide
  · obtain ⟨x, hx, rfl⟩ := padWith_digits d _ (showNat_digits _) c hc
    exact (digit_props x hx).1
  · exact ht c hc

theorem showFixed_solid (d : Nat) (x : ℚ) : Solid (showFixed d x) := by
  have := point_solid d (roundEven (|x| * 10 ^ d)).natAbs x [] (by simp)
  rwa [List.append_nil] at this

/-- Length of fixed-point numbers with up to `k` digits before the point. -/
theorem showFixed_length (d k : Nat) (hd : 0 < d) (hk : 0 < k) (x : ℚ) (h : |x| ≤ 10 ^ k - 1) :
    (showFixed d x).length ≤ k + d + 2 ∧ (0 ≤ x → (showFixed d x).length ≤ k + d + 1) := by
  unfold showFixed
  simp only
  generalize hz : (roundEven (|x| * 10 ^ d)).natAbs = z
  have hp : (0 : ℚ) < 10 ^ d := by positivity
  have hz' : (z : ℤ) ≤ (10 ^ k - 1) * 10 ^ d := by
    rw [← hz, Int.natAbs_of_nonneg (roundEven_nonneg _ (by positivity))]
    refine roundEven_le _ _ ?_
    push_cast
    exact mul_le_mul_of_nonneg_right h hp.le
  have hz2 : z / 10 ^ d < 10 ^ k := by
    rw [Nat.div_lt_iff_lt_mul (by positivity)]
    zify
    have : (0 : ℤ) < 10 ^ d := by positivity
    nlinarith
  have h1 := showNat_length _ _ hk hz2
  have h2 : (padWith '0' d (showNat (z % 10 ^ d))).length = d :=
    padWith_length _ _ _ (showNat_length _ _ hd (Nat.mod_lt _ (by positivity)))
  simp only [List.length_append, List.length_cons, h2]
  constructor
  · split <;> simp <;> omega
  · intro hx
    rw [if_neg (not_lt.2 hx)]
    simp
    omega

/-! ### Exponential notation -/

/-- Value of the decimal representation. -/
def roundExp (d : Nat) (x : ℚ) : ℚ :=
  (if x < 0 then -1 else 1) * (((mantissa d x).1 : ℚ) / 10 ^ d) * (10 : ℚ) ^ (mantissa d x).2

theorem readFloat_showExp (c : Char) (hc : isExp c = true) (d : Nat) (hd : 0 < d) (x : ℚ) :
    readFloat (showExp c d x) = some (roundExp d x) := by
  unfold readFloat showExp
  simp only
  generalize hm : mantissa d x = m
  set e : Str := (if m.2 < 0 then '-' else '+') :: padWith '0' 2 (showNat m.2.natAbs) with he
  have hs := sign_prefix x _ (showNat_digits (m.1 / 10 ^ d)) (showNat_ne _)
    ('.' :: padWith '0' d (showNat (m.1 % 10 ^ d)) ++ c :: e)
  rw [← List.append_assoc, ← List.append_assoc] at hs
  rw [hs]
  have ht := takeWhile_append (p := fun c => !isExp c) _ c e (notExp_point d m.1) (by simp [hc])
  simp only [ht.1, ht.2, List.tail_cons]
  rw [readMantissa_point d _ hd, if_neg (by simp)]
  have h3 : readDigits 0 (padWith '0' 2 (showNat m.2.natAbs)) = some m.2.natAbs := by
    unfold padWith
    rw [readDigits_zeros, readDigits_showNat]
  have hne : padWith '0' 2 (showNat m.2.natAbs) ≠ [] := by
    unfold padWith
    simp [showNat_ne]
  have h4 : readInt e = some m.2 := by
    rw [he]
    unfold readInt
    split
    · next h =>
      simp only [sign, readNat, if_neg hne, h3, Option.map_some, if_true, Option.some.injEq]
      omega
    · next h =>
      simp only [sign, readNat, if_neg hne, h3, Option.map_some, Bool.false_eq_true, if_false, Option.some.injEq]
      omega
  rw [h4]
  simp only [decide_eq_true_eq, roundExp, hm]

theorem mantissa_value (d : Nat) (x : ℚ) (hx : x ≠ 0) :
    ((mantissa d x).1 : ℚ) * (10 : ℚ) ^ ((mantissa d x).2 - d) =
      (roundEven (|x| * 10 ^ ((d : Int) - Int.log 10 |x|)) : ℚ) * (10 : ℚ) ^ (Int.log 10 |x| - d) := by
  unfold mantissa
  rw [if_neg hx]
  simp only
  have h0 : (10 : ℚ) ≠ 0 := by norm_num
  have hn := natAbs_roundEven (|x| * 10 ^ ((d : Int) - Int.log 10 |x|))
    (mul_nonneg (abs_nonneg x) (zpow_nonneg (by norm_num) _))
  split
  · next h =>
    rw [← hn, h]
    push_cast
    rw [← zpow_natCast (10 : ℚ) d, ← zpow_natCast (10 : ℚ) (d + 1), ← zpow_add₀ h0, ← zpow_add₀ h0]
    congr 1
    push_cast
    ring
  · rw [hn]

/-- Numbers in exponential notation are read with a relative error of at most half a unit of the last digit. -/
theorem roundExp_near (d : Nat) (x : ℚ) : |roundExp d x - x| ≤ |x| / 2 / 10 ^ d := by
  by_cases hx : x = 0
  · subst hx
    simp [roundExp, mantissa]
  have h0 : (10 : ℚ) ≠ 0 := by norm_num
  have hpos : 0 < |x| := abs_pos.2 hx
  have e1 : roundExp d x = (if x < 0 then -1 else 1) *
      ((roundEven (|x| * 10 ^ ((d : Int) - Int.log 10 |x|)) : ℚ) * (10 : ℚ) ^ (Int.log 10 |x| - d)) := by
    rw [← mantissa_value d x hx]
    unfold roundExp
    rw [zpow_sub₀ h0, zpow_natCast]
    ring
  set e := Int.log 10 |x| with he
  have hle : (10 : ℚ) ^ e ≤ |x| := by
    have := Int.zpow_log_le_self (b := 10) (by norm_num : 1 < 10) hpos
    exact_mod_cast this
  have hr := roundEven_near (|x| * 10 ^ ((d : Int) - e))
  have hE : (0 : ℚ) < 10 ^ (e - (d : Int)) := zpow_pos (by norm_num) _
  have e2 : |x| = |x| * 10 ^ ((d : Int) - e) * 10 ^ (e - (d : Int)) := by
    rw [mul_assoc, ← zpow_add₀ h0]
    simp
  have e3 : x = (if x < 0 then -1 else 1) * (|x| * 10 ^ ((d : Int) - e) * 10 ^ (e - (d : Int))) := by
    rw [← e2]
    split
    · next h => rw [abs_of_neg h]; ring
    · next h => rw [abs_of_nonneg (not_lt.1 h)]; ring
  have e4 : |roundExp d x - x| = |(roundEven (|x| * 10 ^ ((d : Int) - e)) : ℚ) - |x| * 10 ^ ((d : Int) - e)| *
      10 ^ (e - (d : Int)) := by
    rw [e1]
    generalize hy : |x| * 10 ^ ((d : Int) - e) = y at e3 ⊢
    calc _ = |(if x < 0 then (-1 : ℚ) else 1) * ((roundEven y : ℚ) * 10 ^ (e - (d : Int))) -
          (if x < 0 then (-1 : ℚ) else 1) * (y * 10 ^ (e - (d : Int)))| := by rw [← e3]
      _ = _ := by
        rw [← mul_sub, ← sub_mul, abs_mul, abs_mul, abs_of_pos hE]
        split <;> simp
  rw [e4]
  have e5 : (10 : ℚ) ^ (e - (d : Int)) = 10 ^ e / 10 ^ d := by rw [zpow_sub₀ h0, zpow_natCast]
  have hd : (0 : ℚ) < 10 ^ d := by positivity
  calc _ ≤ 1 / 2 * (10 : ℚ) ^ (e - (d : Int)) := mul_le_mul_of_nonneg_right hr hE.le
    _ = 10 ^ e / 2 / 10 ^ d := by rw [e5]; ring
    _ ≤ |x| / 2 / 10 ^ d := by gcongr

theorem showExp_solid (c : Char) (hc : isExp c = true) (d : Nat) (x : ℚ) : Solid (showExp c d x) := by
  unfold showExp
  simp only
  refine point_solid d _ x _ fun a ha => ?_
  simp only [List.mem_cons] at ha
  rcases ha with rfl | rfl | ha
  · unfold isExp at hc
    simp only [Bool.or_eq_true, beq_iff_eq] at hc
    rcases hc with rfl | rfl <;> decide
  · split <;> decide
  · obtain ⟨x, hx, rfl⟩ := padWith_digits 2 _ (showNat_digits _) a ha
    exact (digit_props x hx).1

/-! ### Reading a list of words -/

theorem mapM_map {α β γ : Type} (f : α → β) (g : β → Option γ) (h : α → γ) (l : List α) (e : ∀ a ∈ l, g (f a) = some (h a)) :
    (l.map f).mapM g = some (l.map h) := by
  induction l with
  | nil => rfl
  | cons a l ih =>
    rw [List.map_cons, List.mapM_cons, e a (by simp), ih fun b hb => e b (by simp [hb])]
    rfl

theorem cols_cons (l : List Str) (h : l ≠ []) (r : List (List Str)) : cols (l :: r) = some (l, r) := by
  cases l with
  | nil => exact absurd rfl h
  | cons w ws => rfl

end Verif.Text
