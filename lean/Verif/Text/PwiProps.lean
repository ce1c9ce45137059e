import Verif.Text.Pwi

/-!
# C122: input files of `pw.x` are read as they have been written
-/

namespace Verif.Pwi

open Verif.Text Verif.Namelist

/-! ### Several namelists -/

theorem put_new {α : Type} (d : List (Str × α)) (k : Str) (v : α) (h : k ∉ d.map Prod.fst) : put d k v = d ++ [(k, v)] := by
  unfold put
  rw [if_neg]
  rw [List.lookup_isSome_iff]
  rintro ⟨p, hp, e⟩
  exact h (List.mem_map.2 ⟨p, hp, (eq_of_beq e).symm⟩)

theorem gather_nodup (bs : List Block) (d : List (Str × Dict))
    (h : (d.map Prod.fst ++ bs.map fun b => b.1.map Char.toLower).Nodup) :
    gather d bs = d ++ bs.map fun b => (b.1.map Char.toLower, values b.2) := by
  induction bs generalizing d with
  | nil => simp [gather]
  | cons b bs ih =>
    have hk : b.1.map Char.toLower ∉ d.map Prod.fst := by
      intro hm
      rw [List.nodup_append] at h
      exact h.2.2 _ hm _ (by simp) rfl
    rw [gather, put_new _ _ _ hk, ih]
    · simp
    · simpa using h

theorem lookup_foldl_update (L : List Dict) (h : ∀ e ∈ L, (e.map Prod.fst).Nodup) (d : Dict) (k : Str) :
    (L.foldl update d).lookup k = L.foldl (fun a e => (e.lookup k).or a) (d.lookup k) := by
  induction L generalizing d with
  | nil => rfl
  | cons e L ih =>
    rw [List.foldl_cons, ih (fun e he => h e (by simp [he])), List.foldl_cons, lookup_update _ _ _ (h e (by simp))]

/-- Reading of a file with several namelists. -/
theorem readInput_blocks (rf : ℚ → Str) (fuel : Nat) (hf : 2 ≤ fuel) (bs : List Block) (h0 : bs ≠ [])
    (h : ∀ b ∈ bs, BlockOk rf b) (hn : (bs.map fun b => b.1.map Char.toLower).Nodup) (t : Str) (ht : TailOk t) :
    ∃ d, readInput fuel (bs.flatMap (blockText rf) ++ t) = some d ∧ ∀ k, d.lookup k =
      bs.foldl (fun a b => (((collect [] b.2).lookup k).map single).or a) none := by
  refine ⟨(bs.map fun b => values b.2).foldl update [], ?_, fun k => ?_⟩
  · unfold readInput
    rw [readNamelists_blocks rf fuel hf bs h0 h t ht, gather_nodup _ _ (by simpa using hn), Option.map_some, List.nil_append,
      List.foldl_map, List.foldl_map]
  · rw [lookup_foldl_update _ (fun e he => by
      obtain ⟨b, _, rfl⟩ := List.mem_map.1 he
      exact values_nodup b.2), List.foldl_map]
    congr 1
    funext a b
    rw [lookup_values]

theorem lookup_keys (rf : ℚ → Str) (struct : Str → Option Val) (keys : List Str) (h : Fine rf struct keys)
    (hp : ∀ k ∈ keys, Plain k) (hn : keys.Nodup) (k : Str) :
    ((collect [] (keyLines struct keys)).lookup k).map single = if k ∈ keys then struct k else none := by
  split
  · next hm =>
    rw [lookup_keyLines rf struct _ h hp hn [] (by simp) k hm]
    cases hv : struct k with
    | none => rfl
    | some v =>
      obtain ⟨i, rfl, _⟩ := h k hm v hv
      rfl
  · next hm =>
    rw [lookup_collect_ne]
    · rfl
    · exact (names_keyLines struct keys hp).ne k hm

/-! ### Lines of cards -/

/-- Words in cards. -/
structure Word (w : Str) : Prop where
  solid : Solid w
  tame : ∀ c ∈ w, isQuote c = false ∧ c ≠ '!' ∧ c ≠ '&'

/-- Lines of words. -/
structure Line (l : List Text.Field) : Prop where
  word : ∀ f ∈ l, Word f.text
  free : ∀ f ∈ l.tail, f.Free

theorem Line.words {l : List Text.Field} (h : Line l) : words (line l) = l.map Field.text :=
  words_fmt l (fun f hf => (h.word f hf).solid) h.free

theorem Line.newline {l : List Text.Field} (h : Line l) : '\n' ∉ fmt l := fmt_newline l fun f hf => (h.word f hf).solid

theorem Line.tame {l : List Text.Field} (h : Line l) : ∀ c ∈ line l, isQuote c = false ∧ c ≠ '!' ∧ c ≠ '&' := by
  intro c hc
  simp only [line, fmt, padLeft, padWith, List.mem_append, List.mem_flatMap, List.mem_replicate, List.mem_singleton] at hc
  rcases hc with ⟨f, hf, hc | hc | hc⟩ | rfl
  · rw [hc.2]
    decide
  · rw [hc.2]
    decide
  · exact (h.word f hf).tame c hc
  · decide

theorem lines_cards (L : List (List Text.Field)) (h : ∀ l ∈ L, Line l) (r : Str) :
    lines (L.flatMap line ++ r) = L.map line ++ lines r := lines_many fmt L (fun l hl => (h l hl).newline) r

theorem numeric_word (w : Str) (hs : Solid w) (h : ∀ c ∈ w, numeric c) : Word w :=
  ⟨hs, fun c hc => by
    have := numeric_props c (h c hc)
    exact ⟨this.1, this.2.1, this.2.2.1⟩⟩

theorem word_fixed (d : Nat) (x : ℚ) : Word (showFixed d x) :=
  numeric_word _ (showFixed_solid d x) fun c hc => (showFixed_chars d x c hc).imp_right fun h => h.imp_right fun h => Or.inl h

theorem word_int (z : Int) : Word (showInt z) := numeric_word _ (showInt_solid z) (showInt_numeric z)

/-- Integers read as floating-point numbers. -/
theorem readFloat_int (z : Int) : readFloat (showInt z) = some (z : ℚ) := by
  have hd := showNat_digits z.natAbs
  have ht := takeWhile_all (p := fun c => !isExp c) (showNat z.natAbs) fun c hc => by
    obtain ⟨x, hx, rfl⟩ := hd c hc
    simp [(digit_props x hx).2.2.2.2]
  have hp := takeWhile_all (p := (· ≠ '.')) (showNat z.natAbs) fun c hc => by
    obtain ⟨x, hx, rfl⟩ := hd c hc
    simpa using (digit_props x hx).2.1
  have hm : readMantissa (showNat z.natAbs) = some ((z.natAbs : ℕ) : ℚ) := by
    simp only [readMantissa, hp.1, hp.2, List.tail_nil]
    rw [if_neg fun h => showNat_ne _ h.1, readDigits_showNat]
    simp [readDigits]
  by_cases hz : z < 0
  · have e : sign (showInt z) = (true, showNat z.natAbs) := by
      rw [showInt, if_pos hz]
      rfl
    unfold readFloat
    simp only [e, ht.1, ht.2, if_true, hm, zpow_zero, mul_one, Option.some.injEq]
    have e : -((z.natAbs : ℕ) : ℤ) = z := by omega
    calc (-1 : ℚ) * ((z.natAbs : ℕ) : ℚ) = ((-((z.natAbs : ℕ) : ℤ) : ℤ) : ℚ) := by
          rw [Int.cast_neg, Int.cast_natCast, neg_one_mul]
      _ = z := by rw [e]
  · have e : sign (showInt z) = (false, showNat z.natAbs) := by
      rw [showInt, if_neg hz]
      exact sign_digits _ hd
    unfold readFloat
    simp only [e, ht.1, ht.2, if_true, hm, zpow_zero, mul_one, Option.some.injEq, Bool.false_eq_true, if_false, one_mul]
    have e : ((z.natAbs : ℕ) : ℤ) = z := by omega
    calc ((z.natAbs : ℕ) : ℚ) = (((z.natAbs : ℕ) : ℤ) : ℚ) := (Int.cast_natCast _).symm
      _ = z := by rw [e]

theorem roundTo_int (z : Int) : roundTo 9 (z : ℚ) = z := by
  have := roundTo_exact 9 (z * 10 ^ 9)
  rw [Int.cast_mul, Int.cast_pow, Int.cast_ofNat, mul_div_assoc, div_self (by positivity), mul_one] at this
  exact this

/-! ### Cards -/

theorem line_species (rg : ℚ → Str) (s : Str × ℚ × Str) (h : Word s.1 ∧ Word (rg s.2.1) ∧ Word s.2.2) :
    Line (speciesFields rg s) := by
  refine ⟨fun f hf => ?_, fun f hf => ?_⟩
  · simp only [speciesFields, List.mem_cons, List.not_mem_nil, or_false] at hf
    rcases hf with rfl | rfl | rfl
    · exact h.1
    · exact h.2.1
    · exact h.2.2
  · simp only [speciesFields, List.tail_cons, List.mem_cons, List.not_mem_nil, or_false] at hf
    rcases hf with rfl | rfl <;> exact Or.inl Nat.one_pos

theorem readSpecies_lines (rg : ℚ → Str) (g : ℚ → ℚ) (l : List (Str × ℚ × Str)) (r : List Str)
    (h : ∀ s ∈ l, Word s.1 ∧ Word (rg s.2.1) ∧ Word s.2.2) (hg : ∀ s ∈ l, readFloat (rg s.2.1) = some (g s.2.1)) :
    readSpecies l.length ((l.map fun s => line (speciesFields rg s)) ++ r) =
      some (l.map fun s => (s.1, g s.2.1, s.2.2), r) := by
  induction l with
  | nil => rfl
  | cons s l ih =>
    have hw := (line_species rg s (h s (by simp))).words
    have hr := ih (fun s hs => h s (by simp [hs])) fun s hs => hg s (by simp [hs])
    simp only [List.length_cons, List.map_cons, List.cons_append]
    rw [readSpecies, hw, hr]
    simp only [speciesFields, fWord, List.map_cons, List.map_nil, List.getElem?_cons_zero, List.getElem?_cons_succ, fl,
      Option.bind_eq_bind, Option.bind_some, hg s (by simp)]
    rfl

theorem line_pos (X : Str) (r : Fin 3 → ℚ) (h : Word X) : Line (posFields X r) := by
  refine ⟨fun f hf => ?_, fun f hf => ?_⟩
  · simp only [posFields, List.mem_cons, List.not_mem_nil, or_false] at hf
    rcases hf with rfl | rfl | rfl | rfl
    · exact h
    all_goals exact word_fixed _ _
  · simp only [posFields, List.tail_cons, List.mem_cons, List.not_mem_nil, or_false] at hf
    rcases hf with rfl | rfl | rfl <;> exact Or.inl Nat.one_pos

theorem line_sg (X r : Str) (h : Word X) (hr : Word r) : Line (sgFields X r) := by
  refine ⟨fun f hf => ?_, fun f hf => ?_⟩
  · simp only [sgFields, List.mem_cons, List.not_mem_nil, or_false] at hf
    rcases hf with rfl | rfl
    · exact h
    · exact hr
  · simp only [sgFields, List.tail_cons, List.mem_cons, List.not_mem_nil, or_false] at hf
    subst hf
    exact Or.inl Nat.one_pos

theorem line_k (k : Fin 4 → ℚ) : Line (kFields k) := by
  refine ⟨fun f hf => ?_, fun f hf => ?_⟩
  · simp only [kFields, List.mem_cons, List.not_mem_nil, or_false] at hf
    rcases hf with rfl | rfl | rfl | rfl
    · exact word_fixed _ _
    · exact word_fixed _ _
    · exact word_fixed _ _
    · split
      · exact word_int _
      · exact word_fixed _ _
  · simp only [kFields, List.tail_cons, List.mem_cons, List.not_mem_nil, or_false] at hf
    rcases hf with rfl | rfl | rfl
    · exact Or.inl Nat.one_pos
    · exact Or.inl Nat.one_pos
    · split <;> exact Or.inl Nat.one_pos

theorem line_cell (r : Fin 3 → ℚ) : Line (cellFields r) := by
  refine ⟨fun f hf => ?_, fun f hf => ?_⟩
  · simp only [cellFields, List.mem_cons, List.not_mem_nil, or_false] at hf
    rcases hf with rfl | rfl | rfl <;> exact word_fixed _ _
  · simp only [cellFields, List.tail_cons, List.mem_cons, List.not_mem_nil, or_false] at hf
    rcases hf with rfl | rfl <;> exact Or.inl Nat.one_pos

/-- Rounding of vectors. -/
def round9 {n : Nat} (r : Fin n → ℚ) : Fin n → ℚ := fun i => roundTo 9 (r i)

theorem vec3 (r : Fin 3 → ℚ) : ![roundTo 9 (r 0), roundTo 9 (r 1), roundTo 9 (r 2)] = round9 r := by
  funext i
  fin_cases i <;> rfl

theorem vec4 (r : Fin 4 → ℚ) : ![roundTo 9 (r 0), roundTo 9 (r 1), roundTo 9 (r 2), roundTo 9 (r 3)] = round9 r := by
  funext i
  fin_cases i <;> rfl

theorem readCart_lines (l : List (Str × (Fin 3 → ℚ))) (r : List Str) (h : ∀ x ∈ l, Word x.1) :
    readCart l.length ((l.map fun x => line (posFields x.1 x.2)) ++ r) = some (l.map fun x => (x.1, round9 x.2), r) := by
  induction l with
  | nil => rfl
  | cons s l ih =>
    have hw := (line_pos s.1 s.2 (h s (by simp))).words
    have hr := ih fun s hs => h s (by simp [hs])
    simp only [List.length_cons, List.map_cons, List.cons_append]
    rw [readCart, hw, hr]
    simp only [posFields, fWord, fFixed, List.map_cons, List.map_nil, List.getElem?_cons_zero, List.getElem?_cons_succ, fl,
      Option.bind_eq_bind, Option.bind_some, readFloat_showFixed 9 (by decide), vec3]
    rfl

theorem readSg_lines (l : List (Str × Str)) (r : List Str) (h : ∀ x ∈ l, Word x.1 ∧ Word x.2) :
    readSg l.length ((l.map fun x => line (sgFields x.1 x.2)) ++ r) = some (l, r) := by
  induction l with
  | nil => rfl
  | cons s l ih =>
    have hw := (line_sg s.1 s.2 (h s (by simp)).1 (h s (by simp)).2).words
    have hr := ih fun s hs => h s (by simp [hs])
    simp only [List.length_cons, List.map_cons, List.cons_append]
    rw [readSg, hw, hr]
    simp only [sgFields, fWord, List.map_cons, List.map_nil, List.getElem?_cons_zero, List.getElem?_cons_succ,
      Option.bind_eq_bind, Option.bind_some]
    rfl

theorem readK_lines (l : List (Fin 4 → ℚ)) (r : List Str) :
    readK l.length ((l.map fun k => line (kFields k)) ++ r) = some (l.map round9, r) := by
  induction l with
  | nil => rfl
  | cons k l ih =>
    have hw := (line_k k).words
    have h3 : readFloat (Field.text (if (k 3).den = 1 then fInt 1 0 (k 3).num else fFixed 1 12 9 (k 3))) = some (roundTo 9 (k 3)) := by
      split
      · next e =>
        have : (((k 3).num : Int) : ℚ) = k 3 := by
          have := Rat.num_div_den (k 3)
          rwa [e, Nat.cast_one, div_one] at this
        show readFloat (showInt _) = _
        rw [readFloat_int, ← this, roundTo_int, Rat.num_intCast]
      · exact readFloat_showFixed 9 (by decide) _
    simp only [List.length_cons, List.map_cons, List.cons_append]
    rw [readK, hw, ih]
    have hm : ((kFields k).map Field.text).take 4 = (kFields k).map Field.text := rfl
    have : ((kFields k).map Field.text).mapM readFloat = some [roundTo 9 (k 0), roundTo 9 (k 1), roundTo 9 (k 2), roundTo 9 (k 3)] := by
      simp only [kFields, List.map_cons, List.map_nil, List.mapM_cons, List.mapM_nil, h3]
      simp only [fFixed, readFloat_showFixed 9 (by decide), Option.bind_eq_bind, Option.bind_some]
      rfl
    rw [hm, this]
    simp only [Option.bind_eq_bind, Option.bind_some, row4, vec4]
    rfl

theorem row3_line (r : Fin 3 → ℚ) : row3 (line (cellFields r)) = some (round9 r) := by
  have hw := (line_cell r).words
  rw [row3, hw]
  simp only [cellFields, fFixed, List.map_cons, List.map_nil, List.getElem?_cons_zero, List.getElem?_cons_succ, fl,
    Option.bind_eq_bind, Option.bind_some, readFloat_showFixed 9 (by decide), vec3]
  rfl

/-- Steps of the loop over lines. -/
inductive Steps (d : Dict) : Nat → List Str → Cards → Cards → Prop
  | nil (s : Cards) : Steps d 0 [] s s
  | cons (l : Str) (ls ls' : List Str) (s s' s'' : Cards) (n : Nat) (h : readCard d (words l) ls s = some (s', ls'))
      (hl : ls'.length ≤ ls.length) (hs : Steps d n ls' s' s'') : Steps d (n + 1) (l :: ls) s s''

theorem Steps.le {d : Dict} {n : Nat} {ls : List Str} {s s' : Cards} (h : Steps d n ls s s') : n ≤ ls.length := by
  induction h with
  | nil => simp
  | cons l ls ls' s s' s'' n h hl hs ih =>
    rw [List.length_cons]
    omega

theorem Steps.read {d : Dict} {n : Nat} {ls : List Str} {s s' : Cards} (h : Steps d n ls s s') (f : Nat) (hf : n ≤ f) :
    readCards d f ls s = some s' := by
  induction h generalizing f with
  | nil => cases f <;> rfl
  | cons l ls ls' s s' s'' n h hl hs ih =>
    obtain ⟨f, rfl⟩ : ∃ g, f = g + 1 := ⟨f - 1, by omega⟩
    rw [readCards, h]
    exact ih f (by omega)

/-- The names of cards. -/
def cardNames : List Str := [tx "atomic_species", tx "atomic_positions", tx "k_points", tx "cell_parameters"]

theorem readCard_other (d : Dict) (w ls : List Str) (s : Cards) (h : ∀ k, w.head? = some k → k.map Char.toLower ∉ cardNames) :
    readCard d w ls s = some (s, ls) := by
  cases w with
  | nil => rfl
  | cons k w =>
    have := h k rfl
    simp only [cardNames, List.mem_cons, List.not_mem_nil, or_false, not_or] at this
    unfold readCard
    simp only [if_neg this.1, if_neg this.2.1, if_neg this.2.2.1, if_neg this.2.2.2]

/-- Lines without cards are skipped. -/
theorem steps_other (d : Dict) (a ls : List Str) (s s' : Cards) (n : Nat)
    (h : ∀ l ∈ a, ∀ k, (words l).head? = some k → k.map Char.toLower ∉ cardNames) (hs : Steps d n ls s s') :
    Steps d (a.length + n) (a ++ ls) s s' := by
  induction a with
  | nil => simpa using hs
  | cons l a ih =>
    have := ih fun l hl => h l (by simp [hl])
    rw [List.length_cons, show a.length + 1 + n = a.length + n + 1 by omega, List.cons_append]
    exact Steps.cons l _ _ s s s' _ (readCard_other d _ _ s (h l (by simp))) le_rfl this

end Verif.Pwi
