import Verif.Text.Namelist

/-!
# Reading namelists that have been written line by line
-/

namespace Verif.Namelist

open Verif.Text

/-! ### Dictionaries -/

theorem lookup_map_ne {α : Type} (d : List (Str × α)) (k k' : Str) (v : α) (h : k' ≠ k) :
    (d.map fun e => if e.1 = k then (k, v) else e).lookup k' = d.lookup k' := by
  induction d with
  | nil => rfl
  | cons e d ih =>
    obtain ⟨a, b⟩ := e
    by_cases ha : a = k
    · subst ha
      have : (k' == a) = false := by simp [h]
      simp only [List.map_cons, if_true, List.lookup, this, ih]
    · simp only [List.map_cons, if_neg ha, List.lookup, ih]

theorem lookup_map_eq {α : Type} (d : List (Str × α)) (k : Str) (v : α) (h : (d.lookup k).isSome) :
    (d.map fun e => if e.1 = k then (k, v) else e).lookup k = some v := by
  induction d with
  | nil => simp at h
  | cons e d ih =>
    obtain ⟨a, b⟩ := e
    by_cases ha : a = k
    · subst ha
      simp [List.lookup]
    · have hb : (k == a) = false := by simp [Ne.symm ha]
      simp only [List.lookup, hb] at h
      simp only [List.map_cons, if_neg ha, List.lookup, hb, ih h]

theorem lookup_append {α : Type} (d e : List (Str × α)) (k : Str) :
    (d ++ e).lookup k = (d.lookup k).or (e.lookup k) := by
  induction d with
  | nil => simp
  | cons x d ih =>
    obtain ⟨a, b⟩ := x
    rw [List.cons_append, List.lookup, List.lookup]
    cases k == a
    · exact ih
    · rfl

/-- `d[k] = v` changes the value of `k` only. -/
theorem lookup_put {α : Type} (d : List (Str × α)) (k k' : Str) (v : α) :
    (put d k v).lookup k' = if k' = k then some v else d.lookup k' := by
  unfold put
  by_cases h : (d.lookup k).isSome
  · rw [if_pos h]
    by_cases hk : k' = k
    · subst hk
      rw [if_pos rfl, lookup_map_eq _ _ _ h]
    · rw [if_neg hk, lookup_map_ne _ _ _ _ hk]
  · rw [if_neg h, lookup_append]
    by_cases hk : k' = k
    · subst hk
      rw [if_pos rfl]
      cases h' : d.lookup k' with
      | none => simp [List.lookup]
      | some x => simp [h'] at h
    · have hb : (k' == k) = false := by simp [hk]
      rw [if_neg hk]
      simp only [List.lookup, hb]
      cases d.lookup k' <;> rfl

/-! ### Comments and strings -/

theorem stripComments_id (s : Str) (h : '!' ∉ s) : stripComments false s = s := by
  induction s with
  | nil => rfl
  | cons c s ih =>
    have hc : (c == '!') = false := by
      have : c ≠ '!' := fun e => h (by simp [e])
      simp [this]
    have := ih fun e => h (by simp [e])
    simp only [stripComments, hc, Bool.or_false, Bool.false_eq_true, if_false, this, ite_self]

/-- Part of a text: without quotation marks or string in single quotation marks. -/
inductive Piece where
  | raw (s : Str)
  | str (s : Str)

/-- Text. -/
def Piece.text : Piece → Str
  | .raw s => s
  | .str s => '\'' :: s ++ ['\'']

/-- No (further) quotation marks. -/
def Piece.Ok : Piece → Prop
  | .raw s => ∀ c ∈ s, isQuote c = false
  | .str s => ∀ c ∈ s, isQuote c = false

/-- Text with placeholders, starting from a number. -/
def hidden : Nat → List Piece → Str
  | _, [] => []
  | m, .raw s :: r => s ++ hidden m r
  | m, .str _ :: r => placeholder (m + 1) ++ hidden (m + 1) r

/-- Strings. -/
def strs : List Piece → List Str
  | [] => []
  | .raw _ :: r => strs r
  | .str s :: r => ('\'' :: s ++ ['\'']) :: strs r

theorem protectPass_skip (g : List Str) (a r : Str) : protectPass g a.length (a ++ r) = protectPass g 0 r := by
  induction a with
  | nil => rfl
  | cons c a ih => exact ih

theorem quoted_closed (q : Char) (hq : isQuote q = true) (s r : Str) (h : ∀ c ∈ s, isQuote c = false) :
    quoted q (s ++ q :: r) = some s := by
  induction s with
  | nil => simp [quoted]
  | cons c s ih =>
    have hc := h c (by simp)
    have hne : c ≠ q := fun e => by
      rw [e, hq] at hc
      exact absurd hc (by simp)
    simp only [List.cons_append, quoted, if_neg hne, hc, Bool.false_eq_true, if_false,
      ih fun d hd => h d (by simp [hd]), Option.map_some]

theorem protectPass_raw (g : List Str) (s r : Str) (h : ∀ c ∈ s, isQuote c = false) :
    protectPass g 0 (s ++ r) = (s ++ (protectPass g 0 r).1, (protectPass g 0 r).2) := by
  induction s with
  | nil => rfl
  | cons c s ih =>
    have hc := h c (by simp)
    rw [List.cons_append, protectPass, hc]
    simp only [Bool.false_eq_true, if_false]
    rw [ih fun d hd => h d (by simp [hd])]
    rfl

theorem protectPass_str (g : List Str) (s r : Str) (h : ∀ c ∈ s, isQuote c = false) :
    protectPass g 0 ('\'' :: s ++ ['\''] ++ r) =
      (placeholder (g.length + 1) ++ (protectPass (g ++ ['\'' :: s ++ ['\'']]) 0 r).1,
        (protectPass (g ++ ['\'' :: s ++ ['\'']]) 0 r).2) := by
  have e : '\'' :: s ++ ['\''] ++ r = '\'' :: (s ++ '\'' :: r) := by simp
  have hs := protectPass_skip (g ++ ['\'' :: s ++ ['\'']]) (s ++ ['\'']) r
  rw [List.length_append, List.length_singleton, List.append_assoc, List.singleton_append] at hs
  rw [e, protectPass, if_pos (by decide), quoted_closed _ (by decide) _ _ h]
  simp only
  rw [hs]

theorem protectPass_pieces (g : List Str) (ps : List Piece) (h : ∀ p ∈ ps, p.Ok) :
    protectPass g 0 (ps.flatMap Piece.text) = (hidden g.length ps, g ++ strs ps) := by
  induction ps generalizing g with
  | nil => simp [protectPass, hidden, strs]
  | cons p ps ih =>
    have hp := h p (by simp)
    have hr : ∀ p ∈ ps, p.Ok := fun q hq => h q (by simp [hq])
    rw [List.flatMap_cons]
    cases p with
    | raw s =>
      rw [Piece.text, protectPass_raw _ _ _ hp, ih g hr]
      rfl
    | str s =>
      rw [Piece.text, protectPass_str _ _ _ hp, ih _ hr]
      simp [hidden, strs]

theorem isDig_digitChar (d : Nat) (h : d < 10) : isDig (digitChar d) = true := by
  rw [isDig, digitVal_digitChar d h]
  rfl

theorem isDig_iff (c : Char) : isDig c = true ↔ ∃ d, d < 10 ∧ c = digitChar d := by
  constructor
  · intro h
    unfold isDig digitVal at h
    split at h
    · next hc =>
      refine ⟨c.toNat - 48, by omega, ?_⟩
      rw [digitChar, show 48 + (c.toNat - 48) = c.toNat by omega]
      exact (Char.ofNat_toNat c).symm
    · simp at h
  · rintro ⟨d, hd, rfl⟩
    exact isDig_digitChar d hd

/-! ### Words -/

/-- Characters without a special meaning. -/
def calm (c : Char) : Bool :=
  !isSpace c && !isQuote c && c != '!' && c != '/' && c != '&' && c != '=' && c != ';' && c != ','

theorem calm_iff (c : Char) : calm c = true ↔ isSpace c = false ∧ isQuote c = false ∧ c ≠ '!' ∧ c ≠ '/' ∧ c ≠ '&' ∧
    c ≠ '=' ∧ c ≠ ';' ∧ c ≠ ',' := by
  simp only [calm, Bool.and_eq_true, Bool.not_eq_true', bne_iff_ne, ne_eq, and_assoc]

theorem calm_digit (d : Nat) (h : d < 10) : calm (digitChar d) = true := by
  have : ∀ d : Fin 10, calm (digitChar d) = true := by decide
  exact this ⟨d, h⟩

/-- Names and (protected) values. -/
structure Good (w : Str) : Prop where
  ne : w ≠ []
  head : w.head? ≠ some '('
  calm : ∀ c ∈ w, calm c = true

theorem Good.eq {w : Str} (h : Good w) : w ≠ ['='] := fun e => by
  have := h.calm '=' (by simp [e])
  exact absurd this (by decide)

theorem placeholder_good (n : Nat) : Good (placeholder n) := by
  refine ⟨by simp [placeholder], by simp [placeholder], fun c hc => ?_⟩
  simp only [placeholder, List.mem_append, List.mem_cons, List.not_mem_nil, or_false] at hc
  rcases hc with ((rfl | rfl | rfl) | hc) | rfl | rfl | rfl
  · decide
  · decide
  · decide
  · obtain ⟨d, hd, rfl⟩ := showNat_digits n c hc
    exact calm_digit d hd
  · decide
  · decide
  · decide

theorem hidden_quote (m : Nat) (ps : List Piece) (h : ∀ p ∈ ps, p.Ok) : ∀ c ∈ hidden m ps, isQuote c = false := by
  induction ps generalizing m with
  | nil => simp [hidden]
  | cons p ps ih =>
    have hr : ∀ p ∈ ps, p.Ok := fun q hq => h q (by simp [hq])
    cases p with
    | raw s =>
      intro c hc
      rw [hidden, List.mem_append] at hc
      exact hc.elim (h (.raw s) (by simp) c) (ih m hr c)
    | str s =>
      intro c hc
      rw [hidden, List.mem_append] at hc
      exact hc.elim (fun hc => ((calm_iff c).1 ((placeholder_good _).calm c hc)).2.1) (ih _ hr c)

/-- All strings are replaced by placeholders. -/
theorem protect_pieces (ps : List Piece) (h : ∀ p ∈ ps, p.Ok) (f : Nat) (hf : 2 ≤ f) :
    protect f [] (ps.flatMap Piece.text) = (hidden 0 ps, strs ps) := by
  obtain ⟨f, rfl⟩ : ∃ g, f = g + 2 := ⟨f - 2, by omega⟩
  rw [protect, protectPass_pieces _ _ h]
  simp only [List.nil_append, List.length_nil]
  split
  · rfl
  · have e := protectPass_raw (strs ps) (hidden 0 ps) [] (hidden_quote 0 ps h)
    rw [List.append_nil] at e
    rw [protect, e]
    simp [protectPass]

theorem hidden_append (m : Nat) (ps qs : List Piece) :
    hidden m (ps ++ qs) = hidden m ps ++ hidden (m + (strs ps).length) qs := by
  induction ps generalizing m with
  | nil => simp [hidden, strs]
  | cons p ps ih =>
    cases p with
    | raw s => simp [hidden, strs, ih]
    | str s =>
      simp only [List.cons_append, hidden, strs, ih, List.length_cons, List.append_assoc]
      rw [show m + 1 + (strs ps).length = m + ((strs ps).length + 1) by omega]

theorem strs_append (ps qs : List Piece) : strs (ps ++ qs) = strs ps ++ strs qs := by
  induction ps with
  | nil => rfl
  | cons p ps ih => cases p <;> simp [strs, ih]

/-! ### Layout of items -/

/-- Text that consists of words which are separated by white space. -/
inductive Laid : Str → List Str → Prop
  | nil : Laid [] []
  | space (c : Char) (s : Str) (ws : List Str) (hc : isSpace c = true) (h : Laid s ws) : Laid (c :: s) ws
  | word (w : Str) (c : Char) (s : Str) (ws : List Str) (hw : w ≠ []) (hp : w.head? ≠ some '(')
      (hs : ∀ c ∈ w, isSpace c = false ∧ c ≠ ';' ∧ c ≠ ',') (hc : isSpace c = true) (h : Laid s ws) :
      Laid (w ++ c :: s) (w :: ws)

theorem Laid.append {s t : Str} {ws vs : List Str} (h : Laid s ws) (h' : Laid t vs) : Laid (s ++ t) (ws ++ vs) := by
  induction h with
  | nil => exact h'
  | space c s ws hc _ ih => exact Laid.space c _ _ hc ih
  | word w c s ws hw hp hs hc _ ih =>
    rw [List.append_assoc, List.cons_append, List.cons_append]
    exact Laid.word w c _ _ hw hp hs hc ih

theorem Laid.paren {s : Str} {ws : List Str} (h : Laid s ws) : (s.dropWhile isSpace).head? ≠ some '(' := by
  induction h with
  | nil => simp
  | space c s ws hc _ ih => rwa [List.dropWhile_cons_of_pos hc]
  | word w c s ws hw hp hs hc _ ih =>
    cases w with
    | nil => exact absurd rfl hw
    | cons a w =>
      have ha := (hs a (by simp)).1
      rw [List.cons_append, List.dropWhile_cons_of_neg (by simp [ha])]
      simpa using hp

theorem glue_word (w r : Str) (h : ∀ c ∈ w, isSpace c = false) : glue (w ++ r) = w ++ glue r := by
  induction w with
  | nil => rfl
  | cons c w ih =>
    have hc := h c (by simp)
    rw [List.cons_append, glue, if_neg (by simp [hc]), ih fun d hd => h d (by simp [hd])]
    rfl

theorem Laid.glue {s : Str} {ws : List Str} (h : Laid s ws) : glue s = s := by
  induction h with
  | nil => rfl
  | space c s ws hc h ih =>
    rw [Namelist.glue, if_neg fun e => h.paren e.2, ih]
  | word w c s ws hw hp hs hc h ih =>
    rw [glue_word _ _ fun c hc => (hs c hc).1, Namelist.glue, if_neg fun e => h.paren e.2, ih]

theorem wordsAux_sep (acc s : Str) (c : Char) (hc : isSpace c = true) (h : acc ≠ []) :
    wordsAux acc (c :: s) = acc :: wordsAux [] s := by
  rw [wordsAux, if_pos hc, if_neg h]

theorem Laid.itemize {s : Str} {ws : List Str} (h : Laid s ws) : itemize s = ws := by
  unfold Namelist.itemize words
  induction h with
  | nil => rfl
  | space c s ws hc h ih =>
    rw [List.map_cons, wordsAux]
    have : isSpace (if c = ';' ∨ c = ',' then ' ' else c) = true := by
      split
      · decide
      · exact hc
    rw [if_pos this, if_pos rfl, ih]
  | word w c s ws hw hp hs hc h ih =>
    have e : w.map (fun c => if c = ';' ∨ c = ',' then ' ' else c) = w := by
      refine (List.map_congr_left fun a ha => ?_).trans (List.map_id w)
      exact if_neg fun h => h.elim (hs a ha).2.1 (hs a ha).2.2
    have : isSpace (if c = ';' ∨ c = ',' then ' ' else c) = true := by
      split
      · decide
      · exact hc
    rw [List.map_append, List.map_cons, e, wordsAux_solid _ fun c hc => (hs c hc).1, List.nil_append,
      wordsAux_sep _ _ _ this hw, ih]

theorem Good.laid {w : Str} (h : Good w) (c : Char) (hc : isSpace c = true) : Laid (w ++ [c]) [w] := by
  refine Laid.word w c [] [] h.ne h.head (fun a ha => ?_) hc Laid.nil
  have := (calm_iff a).1 (h.calm a ha)
  exact ⟨this.1, this.2.2.2.2.2.2⟩

theorem spaceEq_calm (w : Str) (h : ∀ c ∈ w, c ≠ '=') : spaceEq w = w := by
  unfold spaceEq
  induction w with
  | nil => rfl
  | cons c w ih =>
    rw [List.flatMap_cons, if_neg (h c (by simp)), ih fun d hd => h d (by simp [hd])]
    rfl

theorem spaceEq_append (s t : Str) : spaceEq (s ++ t) = spaceEq s ++ spaceEq t := by simp [spaceEq]

/-- An entry with a name and a (protected) value. -/
theorem entry_laid (k w : Str) (hk : Good k) (hw : Good w) : Laid (spaceEq (entry k w)) [k, ['='], w] := by
  have ek := spaceEq_calm k fun c hc => ((calm_iff c).1 (hk.calm c hc)).2.2.2.2.2.1
  have ew := spaceEq_calm w fun c hc => ((calm_iff c).1 (hw.calm c hc)).2.2.2.2.2.1
  have e : spaceEq (entry k w) = (k ++ [' ']) ++ ([' '] ++ ((['='] ++ [' ']) ++ ([' '] ++ (w ++ ['\n'])))) := by
    unfold entry
    rw [spaceEq_append, spaceEq_append, spaceEq_append, ek, ew]
    simp [spaceEq]
  have hs : Laid [' '] [] := Laid.space _ _ _ (by decide) Laid.nil
  have he : Laid (['='] ++ [' ']) [['=']] := Laid.word _ _ _ _ (by simp) (by simp) (by decide) (by decide) Laid.nil
  rw [e]
  exact (hk.laid ' ' (by decide)).append (hs.append (he.append (hs.append (hw.laid '\n' (by decide)))))

/-! ### Placeholders are replaced -/

/-- No three consecutive underscores. -/
def NoTriple (s : Str) : Prop := ¬ ['_', '_', '_'] <:+: s

theorem placePass_none (g : List Str) (s : Str) (h : NoTriple s) : placePass g 0 s = some (s, 0) := by
  induction s with
  | nil => rfl
  | cons c s ih =>
    have h1 : placeAt (c :: s) = none := by
      unfold placeAt
      refine if_neg fun e => h ?_
      have : (c :: s).take 3 <+: c :: s := List.take_prefix _ _
      rw [e.1] at this
      exact this.isInfix
    have h2 : NoTriple s := fun e => h (List.infix_cons e)
    rw [placePass, h1]
    simp only [ih h2, Option.bind_eq_bind, Option.bind_some]
    rfl

theorem noTriple_quote (s : Str) (h : NoTriple s) : NoTriple ('\'' :: s ++ ['\'']) := by
  intro e
  rw [List.cons_append, List.infix_cons_iff] at e
  rcases e with e | e
  · rw [List.cons_prefix_cons] at e
    exact absurd e.1 (by decide)
  · rw [List.infix_concat_iff] at e
    rcases e with e | e
    · obtain ⟨t, e⟩ := e
      have := congrArg List.getLast? e
      simp at this
    · exact h e

theorem placePass_skip (g : List Str) (a : Str) : placePass g a.length a = some ([], 0) := by
  induction a with
  | nil => rfl
  | cons c a ih => exact ih

theorem placeAt_placeholder (n : Nat) : placeAt (placeholder n) = some (showNat n) := by
  have e : (placeholder n).drop 3 = showNat n ++ '_' :: ['_', '_'] := by simp [placeholder]
  have ht := takeWhile_append (p := isDig) (showNat n) '_' ['_', '_'] (fun c hc => by
    obtain ⟨d, hd, rfl⟩ := showNat_digits n c hc
    exact isDig_digitChar d hd) (by decide)
  unfold placeAt
  simp only [e, ht.1]
  rw [if_pos]
  refine ⟨by simp [placeholder], showNat_ne n, by simp⟩

theorem placePass_placeholder (g : List Str) (n : Nat) (t : Str) (h : g[n]? = some t) :
    placePass g 0 (placeholder (n + 1)) = some (t, 1) := by
  have hn : n < g.length := (List.getElem?_eq_some_iff.1 h).1
  have e : placeholder (n + 1) = '_' :: (['_', '_'] ++ showNat (n + 1) ++ ['_', '_', '_']) := by simp [placeholder]
  have hp := placeAt_placeholder (n + 1)
  rw [e] at hp ⊢
  have hs := placePass_skip g (['_', '_'] ++ showNat (n + 1) ++ ['_', '_', '_'])
  have hl : (['_', '_'] ++ showNat (n + 1) ++ ['_', '_', '_']).length = (showNat (n + 1)).length + 5 := by
    simp only [List.length_append, List.length_cons, List.length_nil]
    omega
  rw [hl] at hs
  have hi : pyIndex g.length (((readNat (showNat (n + 1))).getD 0 : Int) - 1) = some n := by
    rw [readNat_showNat, pyIndex, if_pos]
    · simp
    · simp only [Option.getD_some]
      omega
  rw [placePass, hp]
  simp only [hi, h, hs, Option.bind_eq_bind, Option.bind_some]
  simp

theorem place_placeholder (fuel : Nat) (hf : 2 ≤ fuel) (g : List Str) (n : Nat) (s : Str)
    (h : g[n]? = some ('\'' :: s ++ ['\''])) (hs : NoTriple s) :
    place fuel g (placeholder (n + 1)) = some ('\'' :: s ++ ['\'']) := by
  obtain ⟨f, rfl⟩ : ∃ g, fuel = g + 2 := ⟨fuel - 2, by omega⟩
  rw [place, placePass_placeholder g n _ h]
  simp only [Option.bind_eq_bind, Option.bind_some, one_ne_zero, if_false]
  rw [place, placePass_none g _ (noTriple_quote s hs)]
  simp

theorem noTriple_of_not_mem (s : Str) (h : '_' ∉ s) : NoTriple s := fun ⟨a, b, e⟩ => h (by rw [← e]; simp)

theorem place_raw (fuel : Nat) (hf : 1 ≤ fuel) (g : List Str) (s : Str) (h : '_' ∉ s) : place fuel g s = some s := by
  obtain ⟨f, rfl⟩ : ∃ g, fuel = g + 1 := ⟨fuel - 1, by omega⟩
  rw [place, placePass_none g _ (noTriple_of_not_mem s h)]
  simp

/-! ### Values -/

/-- Strings that can be written to and read from a file: no quotation marks, exclamation marks, backslashes, control
characters and triple underscores. -/
structure CleanStr (s : Str) : Prop where
  quote : ∀ c ∈ s, isQuote c = false
  comment : '!' ∉ s
  escape : ∀ c ∈ s, c ≠ '\\' ∧ c ≠ '\n' ∧ c ≠ '\t' ∧ c ≠ '\r'
  triple : NoTriple s

/-- What the shortest representation of a finite floating-point number looks like: there are a point or an exponent, and
it is read as the same number. -/
structure FloatRepr (t : Str) (x : ℚ) : Prop where
  ne : t ≠ []
  chars : ∀ c ∈ t, isDig c = true ∨ c = '.' ∨ c = 'e' ∨ c = '+' ∨ c = '-'
  notInt : readInt t = none
  value : readFloat t = some x

/-- Values that can be written to and read from a file. -/
def ItemOk (rf : ℚ → Str) : Item → Prop
  | .int _ => True
  | .float x => FloatRepr (rf x) x
  | .bool _ => True
  | .str s => CleanStr s
  | .none => False

theorem reprStr_clean (s : Str) (h : CleanStr s) : reprStr s = '\'' :: s ++ ['\''] := by
  have hq : '\'' ∉ s := fun e => by
    have := h.quote _ e
    exact absurd this (by decide)
  unfold reprStr
  rw [if_neg fun e => hq e.1]
  simp only
  congr 2
  have e : ∀ t : Str, (∀ c ∈ t, c ∈ s) → (t.flatMap fun c => if c = '\\' ∨ c = '\'' then ['\\', c] else if c = '\n' then ['\\', 'n']
      else if c = '\t' then ['\\', 't'] else if c = '\r' then ['\\', 'r'] else [c]) = t := by
    intro t
    induction t with
    | nil => simp
    | cons c t ih =>
      intro ht
      have hc := ht c (by simp)
      obtain ⟨h1, h2, h3, h4⟩ := h.escape c hc
      rw [List.flatMap_cons, ih fun d hd => ht d (by simp [hd]),
        if_neg fun e => e.elim h1 fun e => hq (e ▸ hc), if_neg h2, if_neg h3, if_neg h4]
      rfl
  exact e s fun c hc => hc

/-- Value with strings protected. -/
def word (rf : ℚ → Str) (m : Nat) : Item → Str
  | .str _ => placeholder (m + 1)
  | i => reprItem rf i

theorem numeric_good (t : Str) (h0 : t ≠ []) (h : ∀ c ∈ t, isDig c = true ∨ c = '.' ∨ c = 'e' ∨ c = '+' ∨ c = '-') :
    Good t ∧ '_' ∉ t ∧ (∀ c ∈ t, isQuote c = false) ∧ ∀ c ∈ t, c ≠ 'T' ∧ c ≠ 't' ∧ c ≠ 'F' ∧ c ≠ 'f' ∧ c ≠ 'd' ∧ c ≠ 'D' ∧ c ≠ 'E' := by
  have key : ∀ c ∈ t, calm c = true ∧ c ≠ '(' ∧ c ≠ '_' ∧ c ≠ 'T' ∧ c ≠ 't' ∧ c ≠ 'F' ∧ c ≠ 'f' ∧ c ≠ 'd' ∧ c ≠ 'D' ∧ c ≠ 'E' := by
    intro c hc
    rcases h c hc with hd | rfl | rfl | rfl | rfl
    · obtain ⟨d, hd', rfl⟩ := (isDig_iff c).1 hd
      have : ∀ d : Fin 10, calm (digitChar d) = true ∧ digitChar d ≠ '(' ∧ digitChar d ≠ '_' ∧ digitChar d ≠ 'T' ∧
          digitChar d ≠ 't' ∧ digitChar d ≠ 'F' ∧ digitChar d ≠ 'f' ∧ digitChar d ≠ 'd' ∧ digitChar d ≠ 'D' ∧
          digitChar d ≠ 'E' := by decide
      exact this ⟨d, hd'⟩
    all_goals decide
  refine ⟨⟨h0, fun e => ?_, fun c hc => (key c hc).1⟩, fun hc => (key _ hc).2.2.1 rfl,
    fun c hc => ((calm_iff c).1 (key c hc).1).2.1, fun c hc => (key c hc).2.2.2⟩
  exact (key _ (List.mem_of_mem_head? e)).2.1 rfl

theorem showInt_chars (z : Int) : ∀ c ∈ showInt z, isDig c = true ∨ c = '.' ∨ c = 'e' ∨ c = '+' ∨ c = '-' := by
  intro c hc
  have hd : ∀ c ∈ showNat z.natAbs, isDig c = true := fun c hc => by
    obtain ⟨d, hd, rfl⟩ := showNat_digits _ c hc
    exact isDig_digitChar d hd
  unfold showInt at hc
  split at hc
  · rw [List.mem_cons] at hc
    rcases hc with rfl | hc
    · simp
    · exact Or.inl (hd c hc)
  · exact Or.inl (hd c hc)

theorem word_good (rf : ℚ → Str) (m : Nat) (i : Item) (h : ItemOk rf i) : Good (word rf m i) := by
  cases i with
  | int z => exact (numeric_good _ (showInt_solid z).1 (showInt_chars z)).1
  | float x => exact (numeric_good _ (FloatRepr.ne h) (FloatRepr.chars h)).1
  | bool b =>
    cases b
    · exact (⟨by decide, by decide, by decide⟩ : Good ['F', 'a', 'l', 's', 'e'])
    · exact (⟨by decide, by decide, by decide⟩ : Good ['T', 'r', 'u', 'e'])
  | str s => exact placeholder_good _
  | none => exact h.elim

theorem unquote_none (s : Str) (h : ∀ c ∈ s, isQuote c = false) : unquote s = none := by
  cases s with
  | nil => rfl
  | cons c s =>
    unfold unquote
    simp only
    refine if_neg fun e => ?_
    rw [h c (by simp)] at e
    exact absurd e.1 (by simp)

theorem any_false (t : Str) (a b : Char) (h : ∀ c ∈ t, c ≠ a ∧ c ≠ b) : (t.any fun c => c == a || c == b) = false := by
  rw [List.any_eq_false]
  intro c hc
  simp [(h c hc).1, (h c hc).2]

theorem convert_numeric (t : Str) (h0 : t ≠ []) (h : ∀ c ∈ t, isDig c = true ∨ c = '.' ∨ c = 'e' ∨ c = '+' ∨ c = '-') :
    convert t = match readInt t with
      | some z => .int z
      | none => match readFloat t with
        | some x => .float x
        | none => .str t := by
  obtain ⟨_, _, hq, hc⟩ := numeric_good t h0 h
  have e : (t.map fun c => if c = 'd' ∨ c = 'D' ∨ c = 'E' then 'e' else c) = t := by
    refine (List.map_congr_left fun c hm => ?_).trans (List.map_id t)
    obtain ⟨_, _, _, _, h1, h2, h3⟩ := hc c hm
    exact if_neg fun e => e.elim h1 fun e => e.elim h2 h3
  unfold convert
  rw [unquote_none t hq, any_false t 'T' 't' fun c hm => ⟨(hc c hm).1, (hc c hm).2.1⟩,
    any_false t 'F' 'f' fun c hm => ⟨(hc c hm).2.2.1, (hc c hm).2.2.2.1⟩, e]
  simp only [Bool.false_eq_true, if_false]
  rfl

theorem convert_str (s : Str) (h : CleanStr s) : convert ('\'' :: s ++ ['\'']) = .str s := by
  have : unquote ('\'' :: s ++ ['\'']) = some s := by
    rw [List.cons_append, unquote, if_pos]
    · simp
    · refine ⟨by decide, by simp, fun e => ?_⟩
      rw [List.mem_append, List.mem_singleton] at e
      rcases e with e | e
      · exact (h.escape _ e).2.1 rfl
      · exact absurd e (by decide)
  unfold convert
  rw [this]

/-- Values are read correctly. -/
theorem read_word (rf : ℚ → Str) (fuel : Nat) (hf : 2 ≤ fuel) (g : List Str) (m : Nat) (i : Item) (h : ItemOk rf i)
    (hg : ∀ s, i = .str s → g[m]? = some ('\'' :: s ++ ['\''])) :
    (place fuel g (word rf m i)).map convert = some i := by
  cases i with
  | int z =>
    have hn := numeric_good _ (showInt_solid z).1 (showInt_chars z)
    rw [word, reprItem, place_raw fuel (by omega) g _ hn.2.1, Option.map_some, convert_numeric _ (showInt_solid z).1 (showInt_chars z),
      readInt_showInt]
    simp
  | float x =>
    have hn := numeric_good _ (FloatRepr.ne h) (FloatRepr.chars h)
    rw [word, reprItem, place_raw fuel (by omega) g _ hn.2.1, Option.map_some, convert_numeric _ (FloatRepr.ne h) (FloatRepr.chars h),
      FloatRepr.notInt h, FloatRepr.value h]
    simp
  | bool b =>
    cases b
    · rw [word, reprItem, place_raw fuel (by omega) g _ (by decide)]
      rfl
      intro s e
      cases e
    · rw [word, reprItem, place_raw fuel (by omega) g _ (by decide)]
      rfl
      intro s e
      cases e
  | str s =>
    rw [word, place_placeholder fuel hf g m s (hg s rfl) h.triple, Option.map_some, convert_str s h]
  | none => exact h.elim

/-! ### Lines -/

/-- Line of a namelist: empty or with a name and a value. -/
abbrev Line := Option (Str × Item)

/-- Text of a line. -/
def lineText (rf : ℚ → Str) : Line → Str
  | none => ['\n']
  | some (k, i) => entry k (reprItem rf i)

/-- Valid lines. -/
def LineOk (rf : ℚ → Str) : Line → Prop
  | none => True
  | some (k, i) => Good k ∧ ItemOk rf i

/-- Pieces of a line. -/
def pieces (rf : ℚ → Str) : Line → List Piece
  | none => [.raw ['\n']]
  | some (k, .str s) => [.raw (k ++ [' ', '=', ' ']), .str s, .raw ['\n']]
  | some (k, i) => [.raw (entry k (reprItem rf i))]

theorem pieces_text (rf : ℚ → Str) (l : Line) (h : LineOk rf l) : (pieces rf l).flatMap Piece.text = lineText rf l := by
  rcases l with _ | ⟨k, i⟩
  · rfl
  · cases i with
    | str s => simp [pieces, lineText, entry, reprItem, reprStr_clean s h.2, Piece.text]
    | int z => simp [pieces, lineText, Piece.text]
    | float x => simp [pieces, lineText, Piece.text]
    | bool b => simp [pieces, lineText, Piece.text]
    | none => exact h.2.elim

theorem entry_mem (P : Char → Prop) (k w : Str) (hk : ∀ c ∈ k, P c) (hw : ∀ c ∈ w, P c) (h1 : P ' ') (h2 : P '=')
    (h3 : P '\n') : ∀ c ∈ entry k w, P c := by
  intro c hc
  simp only [entry, List.mem_append, List.mem_cons, List.not_mem_nil, or_false] at hc
  rcases hc with ((hc | rfl | rfl | rfl) | hc) | rfl
  · exact hk c hc
  · exact h1
  · exact h2
  · exact h1
  · exact hw c hc
  · exact h3

theorem Good.quote {w : Str} (h : Good w) : ∀ c ∈ w, isQuote c = false := fun c hc => ((calm_iff c).1 (h.calm c hc)).2.1

theorem pieces_ok (rf : ℚ → Str) (l : Line) (h : LineOk rf l) : ∀ p ∈ pieces rf l, p.Ok := by
  rcases l with _ | ⟨k, i⟩
  · intro p hp
    rw [pieces, List.mem_singleton] at hp
    subst hp
    intro c hc
    rw [List.mem_singleton] at hc
    subst hc
    decide
  · have hr : (∀ c ∈ reprItem rf i, isQuote c = false) → Piece.Ok (.raw (entry k (reprItem rf i))) := fun hr =>
      entry_mem (fun c => isQuote c = false) k _ h.1.quote hr (by decide) (by decide) (by decide)
    have hw := word_good rf 0 i h.2
    cases i with
    | str s =>
      intro p hp
      simp only [pieces, List.mem_cons, List.not_mem_nil, or_false] at hp
      rcases hp with rfl | rfl | rfl
      · intro c hc
        simp only [List.mem_append, List.mem_cons, List.not_mem_nil, or_false] at hc
        rcases hc with hc | rfl | rfl | rfl
        · exact h.1.quote c hc
        all_goals decide
      · exact h.2.quote
      · intro c hc
        rw [List.mem_singleton] at hc
        subst hc
        decide
    | int z =>
      intro p hp
      rw [pieces, List.mem_singleton] at hp
      · subst hp
        exact hr hw.quote
      · intro s e
        cases e
    | float x =>
      intro p hp
      rw [pieces, List.mem_singleton] at hp
      · subst hp
        exact hr hw.quote
      · intro s e
        cases e
    | bool b =>
      intro p hp
      rw [pieces, List.mem_singleton] at hp
      · subst hp
        exact hr hw.quote
      · intro s e
        cases e
    | none => exact h.2.elim

/-- Strings of lines. -/
def lineStrs : List Line → List Str
  | [] => []
  | some (_, .str s) :: r => ('\'' :: s ++ ['\'']) :: lineStrs r
  | _ :: r => lineStrs r

/-- Number of strings in a line. -/
def count : Line → Nat
  | some (_, .str _) => 1
  | _ => 0

/-- Lines with placeholders. -/
def hiddenLines (rf : ℚ → Str) : Nat → List Line → Str
  | _, [] => []
  | m, none :: r => '\n' :: hiddenLines rf m r
  | m, some (k, i) :: r => entry k (word rf m i) ++ hiddenLines rf (m + count (some (k, i))) r

theorem hidden_lines (rf : ℚ → Str) (m : Nat) (ls : List Line) :
    hidden m (ls.flatMap (pieces rf)) = hiddenLines rf m ls ∧ strs (ls.flatMap (pieces rf)) = lineStrs ls ∧
      (lineStrs ls).length = (ls.map count).sum := by
  induction ls generalizing m with
  | nil => exact ⟨rfl, rfl, rfl⟩
  | cons l ls ih =>
    rw [List.flatMap_cons, hidden_append, strs_append]
    rcases l with _ | ⟨k, i⟩
    · refine ⟨?_, ?_, ?_⟩
      · simp [pieces, strs, hidden, hiddenLines, (ih m).1]
      · simp [pieces, strs, lineStrs, (ih m).2.1]
      · simp [lineStrs, count, (ih m).2.2]
    · cases i <;> refine ⟨?_, ?_, ?_⟩ <;>
        simp [pieces, strs, lineStrs, count, hidden, hiddenLines, word, reprItem, entry, (ih _).1, (ih m).2.1, (ih m).2.2, Nat.add_comm]

/-- Items of lines. -/
def items (rf : ℚ → Str) : Nat → List Line → List Str
  | _, [] => []
  | m, none :: r => items rf m r
  | m, some (k, i) :: r => k :: ['='] :: word rf m i :: items rf (m + count (some (k, i))) r

theorem hiddenLines_laid (rf : ℚ → Str) (m : Nat) (ls : List Line) (h : ∀ l ∈ ls, LineOk rf l) :
    Laid (spaceEq (hiddenLines rf m ls)) (items rf m ls) := by
  induction ls generalizing m with
  | nil => exact Laid.nil
  | cons l ls ih =>
    have hr : ∀ l ∈ ls, LineOk rf l := fun l hl => h l (by simp [hl])
    have hl := h l (by simp)
    rcases l with _ | ⟨k, i⟩
    · exact Laid.space '\n' _ _ (by decide) (ih m hr)
    · rw [hiddenLines, spaceEq_append]
      exact (entry_laid k _ hl.1 (word_good rf m i hl.2)).append (ih _ hr)

theorem hiddenLines_mem (rf : ℚ → Str) (m : Nat) (ls : List Line) (h : ∀ l ∈ ls, LineOk rf l) :
    ∀ c ∈ hiddenLines rf m ls, c ≠ '/' := by
  induction ls generalizing m with
  | nil => simp [hiddenLines]
  | cons l ls ih =>
    have hr : ∀ l ∈ ls, LineOk rf l := fun l hl => h l (by simp [hl])
    have hl := h l (by simp)
    rcases l with _ | ⟨k, i⟩
    · intro c hc
      rw [hiddenLines, List.mem_cons] at hc
      rcases hc with rfl | hc
      · decide
      · exact ih m hr c hc
    · intro c hc
      rw [hiddenLines, List.mem_append] at hc
      rcases hc with hc | hc
      · refine entry_mem (fun c => c ≠ '/') k _ (fun c hc => ?_) (fun c hc => ?_) (by decide) (by decide) (by decide) c hc
        · exact ((calm_iff c).1 (hl.1.calm c hc)).2.2.2.1
        · exact ((calm_iff c).1 ((word_good rf m i hl.2).calm c hc)).2.2.2.1
      · exact ih _ hr c hc

/-- Assignment of one value to a list. -/
def assign (d : Raw) (k : Str) (i : Item) : Raw :=
  let d' := put d (keyOf k).1 (pad ((d.lookup (keyOf k).1).getD []) (keyOf k).2)
  put d' (keyOf k).1 (sliceSet ((d'.lookup (keyOf k).1).getD []) (keyOf k).2 i)

/-- Assignment of all values. -/
def collect : Raw → List Line → Raw
  | d, [] => d
  | d, none :: r => collect d r
  | d, some (k, i) :: r => collect (assign d k i) r

theorem items_head (rf : ℚ → Str) (m : Nat) (ls : List Line) (h : ∀ l ∈ ls, LineOk rf l) :
    (items rf m ls).head? ≠ some ['='] := by
  induction ls generalizing m with
  | nil => simp [items]
  | cons l ls ih =>
    have hr : ∀ l ∈ ls, LineOk rf l := fun l hl => h l (by simp [hl])
    have hl := h l (by simp)
    rcases l with _ | ⟨k, i⟩
    · exact ih m hr
    · rw [items, List.head?_cons]
      exact fun e => hl.1.eq (Option.some.inj e)

theorem scan_cons (fuel : Nat) (g : List Str) (item : Str) (rest : List Str) (key : Option (Str × Int)) (d : Raw) :
    scan fuel g (item :: rest) key d = if rest.head? = some ['='] then
        scan fuel g rest (some (keyOf item)) (put d (keyOf item).1 (pad ((d.lookup (keyOf item).1).getD []) (keyOf item).2))
      else match key with
        | none => scan fuel g rest none d
        | some (k, n) =>
          if item = ['='] then scan fuel g rest (some (k, n)) d
          else (place fuel g item).bind fun t =>
            scan fuel g rest (some (k, n + 1)) (put d k (sliceSet ((d.lookup k).getD []) n (convert t))) := by
  cases key <;> rfl

/-- All values are assigned. -/
theorem scan_lines (rf : ℚ → Str) (fuel : Nat) (hf : 2 ≤ fuel) (ls : List Line) (h : ∀ l ∈ ls, LineOk rf l)
    (pre post : List Str) (key : Option (Str × Int)) (d : Raw) :
    scan fuel (pre ++ lineStrs ls ++ post) (items rf pre.length ls) key d = some (collect d ls) := by
  induction ls generalizing pre key d with
  | nil => rfl
  | cons l ls ih =>
    have hr : ∀ l ∈ ls, LineOk rf l := fun l hl => h l (by simp [hl])
    have hl := h l (by simp)
    rcases l with _ | ⟨k, i⟩
    · exact ih hr pre key d
    · have hw := word_good rf pre.length i hl.2
      have hh := items_head rf (pre.length + count (some (k, i))) ls hr
      have hv := read_word rf fuel hf (pre ++ lineStrs (some (k, i) :: ls) ++ post) pre.length i hl.2 (fun s e => by
        subst e
        simp [lineStrs])
      have hn := ih hr
      rw [items, scan_cons, if_pos (by simp), scan_cons, if_neg (by simpa using hw.eq)]
      simp only [if_true]
      rw [scan_cons, if_neg hh]
      simp only [if_neg hw.eq]
      cases ht : place fuel (pre ++ lineStrs (some (k, i) :: ls) ++ post) (word rf pre.length i) with
      | none =>
        rw [ht] at hv
        simp at hv
      | some t =>
        rw [ht, Option.map_some, Option.some.injEq] at hv
        simp only [Option.bind_eq_bind, Option.bind_some, hv]
        rw [collect]
        cases i with
        | str s =>
          have := hn (pre ++ ['\'' :: s ++ ['\'']]) (some ((keyOf k).1, (keyOf k).2 + 1)) (assign d k (.str s))
          rw [List.length_append, List.length_singleton] at this
          rw [← this]
          simp [lineStrs, count, assign]
        | int z => exact hn pre _ _
        | float x => exact hn pre _ _
        | bool b => exact hn pre _ _
        | none => exact hn pre _ _

/-! ### Files -/

/-- Namelist: name and lines. -/
abbrev Block := Str × List Line

/-- Text of a namelist. -/
def blockText (rf : ℚ → Str) (b : Block) : Str :=
  '&' :: b.1 ++ '\n' :: (b.2.flatMap (lineText rf) ++ ['/', '\n'])

/-- Valid namelists. -/
structure BlockOk (rf : ℚ → Str) (b : Block) : Prop where
  ne : b.1 ≠ []
  name : ∀ c ∈ b.1, isWord c = true ∧ isQuote c = false ∧ c ≠ '!'
  lines : ∀ l ∈ b.2, LineOk rf l

/-- Valid text after the namelists. -/
structure TailOk (t : Str) : Prop where
  quote : ∀ c ∈ t, isQuote c = false
  comment : '!' ∉ t
  amp : '&' ∉ t

/-- Pieces of a namelist. -/
def blockPieces (rf : ℚ → Str) (b : Block) : List Piece :=
  .raw ('&' :: b.1 ++ ['\n']) :: (b.2.flatMap (pieces rf) ++ [.raw ['/', '\n']])

theorem blockPieces_text (rf : ℚ → Str) (b : Block) (h : BlockOk rf b) :
    (blockPieces rf b).flatMap Piece.text = blockText rf b := by
  have e : (b.2.flatMap (pieces rf)).flatMap Piece.text = b.2.flatMap (lineText rf) := by
    rw [List.flatMap_assoc]
    exact List.flatMap_congr fun l hl => pieces_text rf l (h.lines l hl)
  simp [blockPieces, blockText, e, Piece.text]

theorem blockPieces_ok (rf : ℚ → Str) (b : Block) (h : BlockOk rf b) : ∀ p ∈ blockPieces rf b, p.Ok := by
  intro p hp
  simp only [blockPieces, List.mem_cons, List.mem_append, List.mem_flatMap, List.not_mem_nil, or_false] at hp
  rcases hp with rfl | ⟨l, hl, hp⟩ | rfl
  · intro c hc
    simp only [List.mem_append, List.mem_cons, List.not_mem_nil, or_false] at hc
    rcases hc with (rfl | hc) | rfl
    · decide
    · exact (h.name c hc).2.1
    · decide
  · exact pieces_ok rf l (h.lines l hl) p hp
  · show ∀ c ∈ ['/', '\n'], isQuote c = false
    decide

theorem namelists_skip (a r : Str) : namelists a.length (a ++ r) = namelists 0 r := by
  induction a with
  | nil => rfl
  | cons c a ih => exact ih

theorem namelists_none (s : Str) (h : '&' ∉ s) (r : Str) : namelists 0 (s ++ r) = namelists 0 r := by
  induction s with
  | nil => rfl
  | cons c s ih =>
    have hc : c ≠ '&' := fun e => h (by simp [e])
    rw [List.cons_append, namelists, if_neg hc]
    exact ih fun e => h (by simp [e])

/-- A namelist followed by other text. -/
theorem namelists_block (name cont r : Str) (h0 : name ≠ []) (hn : ∀ c ∈ name, isWord c = true) (hc : ∀ c ∈ cont, c ≠ '/') :
    namelists 0 ('&' :: name ++ '\n' :: cont ++ '/' :: r) = (name, '\n' :: cont) :: namelists 0 r := by
  have e : '&' :: name ++ '\n' :: cont ++ '/' :: r = '&' :: (name ++ '\n' :: (cont ++ '/' :: r)) := by simp
  have ht := (takeWhile_append (p := isWord) name '\n' (cont ++ '/' :: r) hn (by decide)).1
  have hb : body ('\n' :: (cont ++ '/' :: r)) = some ('\n' :: cont) := by
    rw [body, if_pos (by simp), (takeWhile_append (p := fun c => c ≠ '/') cont '/' r (fun c hm => by simp [hc c hm]) (by simp)).1]
  obtain ⟨k, hk⟩ : ∃ k, name.length = k + 1 := ⟨name.length - 1, by have := List.length_pos_of_ne_nil h0; omega⟩
  have hnb : nameBody (name ++ '\n' :: (cont ++ '/' :: r)) name.length = some (name, '\n' :: cont) := by
    rw [hk, nameBody, ← hk, List.drop_left, hb, List.take_left]
  have hs := namelists_skip (name ++ '\n' :: cont ++ ['/']) r
  rw [e, namelists, if_pos rfl, ht, hnb]
  simp only
  congr 1
  rw [← hs]
  congr 1
  · simp only [List.length_append, List.length_cons, List.length_nil]
  · simp

/-- Namelists with placeholders. -/
def conts (rf : ℚ → Str) : Nat → List Block → List (Str × Str)
  | _, [] => []
  | m, b :: r => (b.1, '\n' :: hiddenLines rf m b.2) :: conts rf (m + (lineStrs b.2).length) r

theorem namelists_blocks (rf : ℚ → Str) (m : Nat) (bs : List Block) (h : ∀ b ∈ bs, BlockOk rf b) (t : Str) (ht : '&' ∉ t) :
    namelists 0 (hidden m (bs.flatMap (blockPieces rf) ++ [.raw t])) = conts rf m bs := by
  induction bs generalizing m with
  | nil =>
    have := namelists_none t ht []
    simpa [hidden, conts, namelists] using this
  | cons b bs ih =>
    have hb := h b (by simp)
    have hr : ∀ b ∈ bs, BlockOk rf b := fun b hb => h b (by simp [hb])
    obtain ⟨h1, h2, _⟩ := hidden_lines rf m b.2
    have e : hidden m ((b :: bs).flatMap (blockPieces rf) ++ [.raw t]) = '&' :: b.1 ++ '\n' :: hiddenLines rf m b.2 ++ '/' ::
        (['\n'] ++ hidden (m + (lineStrs b.2).length) (bs.flatMap (blockPieces rf) ++ [.raw t])) := by
      rw [List.flatMap_cons, List.append_assoc, hidden_append]
      have e1 : hidden m (blockPieces rf b) = '&' :: b.1 ++ '\n' :: hiddenLines rf m b.2 ++ ['/', '\n'] := by
        simp [blockPieces, hidden, hidden_append, h1]
      have e2 : strs (blockPieces rf b) = lineStrs b.2 := by
        simp [blockPieces, strs, strs_append, h2]
      rw [e1, e2]
      simp
    rw [e, namelists_block _ _ _ hb.ne (fun c hc => (hb.name c hc).1) (hiddenLines_mem rf m b.2 hb.lines),
      namelists_none ['\n'] (by decide), ih _ hr]
    rfl

/-- Values of a namelist. -/
def values (ls : List Line) : Dict := (collect [] ls).map fun e => (e.1, single e.2)

theorem content_lines (rf : ℚ → Str) (fuel : Nat) (hf : 2 ≤ fuel) (ls : List Line) (h : ∀ l ∈ ls, LineOk rf l)
    (pre post : List Str) :
    content fuel (pre ++ lineStrs ls ++ post) ('\n' :: hiddenLines rf pre.length ls) = some (values ls) := by
  have hl : Laid (spaceEq ('\n' :: hiddenLines rf pre.length ls)) (items rf pre.length ls) :=
    Laid.space '\n' _ _ (by decide) (hiddenLines_laid rf pre.length ls h)
  unfold content
  rw [hl.glue, hl.itemize, scan_lines rf fuel hf ls h]
  rfl

/-- All namelists. -/
def gather : List (Str × Dict) → List Block → List (Str × Dict)
  | d, [] => d
  | d, b :: r => gather (put d (b.1.map Char.toLower) (values b.2)) r

theorem parse_blocks (rf : ℚ → Str) (fuel : Nat) (hf : 2 ≤ fuel) (bs : List Block) (h : ∀ b ∈ bs, BlockOk rf b)
    (pre : List Str) (data : List (Str × Dict)) :
    parse fuel (pre ++ bs.flatMap fun b => lineStrs b.2) (conts rf pre.length bs) data = some (gather data bs) := by
  induction bs generalizing pre data with
  | nil => rfl
  | cons b bs ih =>
    have hb := h b (by simp)
    have hr : ∀ b ∈ bs, BlockOk rf b := fun b hb => h b (by simp [hb])
    have hc := content_lines rf fuel hf b.2 hb.lines pre (bs.flatMap fun b => lineStrs b.2)
    have := ih hr (pre ++ lineStrs b.2) (put data (b.1.map Char.toLower) (values b.2))
    rw [List.length_append] at this
    rw [conts, parse, List.flatMap_cons, ← List.append_assoc, hc]
    simp only [Option.bind_eq_bind, Option.bind_some]
    exact this

theorem strs_blocks (rf : ℚ → Str) (bs : List Block) (t : Str) :
    strs (bs.flatMap (blockPieces rf) ++ [.raw t]) = bs.flatMap fun b => lineStrs b.2 := by
  induction bs with
  | nil => rfl
  | cons b bs ih =>
    rw [List.flatMap_cons, List.append_assoc, strs_append, ih]
    simp [blockPieces, strs, strs_append, (hidden_lines rf 0 b.2).2.1]

theorem piece_comment (rf : ℚ → Str) (l : Line) (h : LineOk rf l) : '!' ∉ lineText rf l := by
  rcases l with _ | ⟨k, i⟩
  · show '!' ∉ ['\n']
    decide
  · have hw := word_good rf 0 i h.2
    have hr : '!' ∉ reprItem rf i := by
      cases i with
      | str s =>
        rw [reprItem, reprStr_clean s h.2]
        intro e
        simp only [List.mem_append, List.mem_cons, List.not_mem_nil, or_false] at e
        rcases e with (e | e) | e
        · exact absurd e (by decide)
        · exact h.2.comment e
        · exact absurd e (by decide)
      | int z => exact fun e => ((calm_iff _).1 (hw.calm _ e)).2.2.1 rfl
      | float x => exact fun e => ((calm_iff _).1 (hw.calm _ e)).2.2.1 rfl
      | bool b => exact fun e => ((calm_iff _).1 (hw.calm _ e)).2.2.1 rfl
      | none => exact h.2.elim
    intro e
    exact entry_mem (fun c => c ≠ '!') k _ (fun c hc => ((calm_iff c).1 (h.1.calm c hc)).2.2.1) (fun c hc e => hr (e ▸ hc))
      (by decide) (by decide) (by decide) _ e rfl

/-- **Reading of files which consist of namelists and other text.** -/
theorem readNamelists_blocks (rf : ℚ → Str) (fuel : Nat) (hf : 2 ≤ fuel) (bs : List Block) (h0 : bs ≠ [])
    (h : ∀ b ∈ bs, BlockOk rf b) (t : Str) (ht : TailOk t) :
    readNamelists fuel (bs.flatMap (blockText rf) ++ t) = some (gather [] bs) := by
  have e : (bs.flatMap (blockPieces rf) ++ [Piece.raw t]).flatMap Piece.text = bs.flatMap (blockText rf) ++ t := by
    rw [List.flatMap_append, List.flatMap_assoc, List.flatMap_congr fun b hb => blockPieces_text rf b (h b hb)]
    simp [Piece.text]
  have hc : '!' ∉ bs.flatMap (blockText rf) ++ t := by
    intro hm
    rw [List.mem_append, List.mem_flatMap] at hm
    rcases hm with ⟨b, hb, hm⟩ | hm
    · simp only [blockText, List.mem_append, List.mem_cons, List.mem_flatMap, List.not_mem_nil, or_false] at hm
      rcases hm with (hm | hm) | hm | ⟨l, hl, hm⟩ | hm | hm
      · exact absurd hm (by decide)
      · exact ((h b hb).name _ hm).2.2 rfl
      · exact absurd hm (by decide)
      · exact piece_comment rf l ((h b hb).lines l hl) hm
      · exact absurd hm (by decide)
      · exact absurd hm (by decide)
    · exact ht.comment hm
  have hlen : 2 ≤ (bs.flatMap (blockText rf) ++ t).length := by
    cases bs with
    | nil => exact absurd rfl h0
    | cons b bs =>
      simp only [List.flatMap_cons, blockText, List.length_append, List.length_cons]
      omega
  have hok : ∀ p ∈ bs.flatMap (blockPieces rf) ++ [.raw t], p.Ok := by
    intro p hp
    rw [List.mem_append, List.mem_flatMap, List.mem_singleton] at hp
    rcases hp with ⟨b, hb, hp⟩ | rfl
    · exact blockPieces_ok rf b (h b hb) p hp
    · exact ht.quote
  have hp := protect_pieces _ hok (bs.flatMap (blockText rf) ++ t).length hlen
  rw [e, strs_blocks] at hp
  have := parse_blocks rf fuel hf bs h [] []
  unfold readNamelists
  simp only
  rw [stripComments_id _ hc, hp]
  simp only
  rw [namelists_blocks rf 0 bs h t ht.amp]
  exact this

end Verif.Namelist
