import Mathlib.Tactic.FinCases
import Verif.Text.InputProps

/-!
# C121: input files of `matdyn.x`, limits
-/

namespace Verif.Namelist

open Verif.Text

/-! ### `matdyn.x` -/

theorem lines_line (s : Str) (h : '\n' ∉ s) (r : Str) : lines (s ++ '\n' :: r) = (s ++ ['\n']) :: lines r := by
  unfold lines
  rw [linesAux_line s h]
  rfl

theorem lines_many {α : Type} (f : α → Str) (l : List α) (h : ∀ a ∈ l, '\n' ∉ f a) (r : Str) :
    lines ((l.flatMap fun a => f a ++ ['\n']) ++ r) = (l.map fun a => f a ++ ['\n']) ++ lines r := by
  induction l with
  | nil => rfl
  | cons a l ih =>
    have := ih fun b hb => h b (by simp [hb])
    rw [List.flatMap_cons, List.append_assoc, List.append_assoc, List.singleton_append, lines_line _ (h a (by simp)), this]
    rfl

theorem showFixed_chars (d : Nat) (x : ℚ) : ∀ c ∈ showFixed d x, isDig c = true ∨ c = '.' ∨ c = '-' := by
  intro c hc
  have hd : ∀ s : Str, Digits s → c ∈ s → isDig c = true := fun s hs hc => by
    obtain ⟨d, hd, rfl⟩ := hs c hc
    exact isDig_digitChar d hd
  unfold showFixed at hc
  simp only [List.mem_append, List.mem_cons] at hc
  rcases hc with (hc | hc) | rfl | hc
  · split at hc
    · simp at hc
      simp [hc]
    · simp at hc
  · exact Or.inl (hd _ (showNat_digits _) hc)
  · simp
  · exact Or.inl (hd _ (padWith_digits _ _ (showNat_digits _)) hc)

/-- Characters of numbers. -/
def numeric (c : Char) : Prop := isDig c = true ∨ c = '.' ∨ c = '-' ∨ c = ' '

theorem numeric_props (c : Char) (h : numeric c) : isQuote c = false ∧ c ≠ '!' ∧ c ≠ '&' ∧ c ≠ '/' ∧ c ≠ '\n' := by
  rcases h with h | rfl | rfl | rfl
  · obtain ⟨d, hd, rfl⟩ := (isDig_iff c).1 h
    have : ∀ d : Fin 10, isQuote (digitChar d) = false ∧ digitChar d ≠ '!' ∧ digitChar d ≠ '&' ∧ digitChar d ≠ '/' ∧
      digitChar d ≠ '\n' := by decide
    exact this ⟨d, hd⟩
  all_goals decide

theorem fmt_numeric (l : List Field) (h : ∀ f ∈ l, ∀ c ∈ f.text, numeric c) : ∀ c ∈ fmt l, numeric c := by
  intro c hc
  simp only [fmt, padLeft, padWith, List.mem_flatMap, List.mem_append, List.mem_replicate] at hc
  obtain ⟨f, hf, hc | hc | hc⟩ := hc
  · exact Or.inr (Or.inr (Or.inr hc.2))
  · exact Or.inr (Or.inr (Or.inr hc.2))
  · exact h f hf c hc

theorem qLine_numeric (q : Fin 4 → ℚ) : ∀ c ∈ fmt (qLine q), numeric c := by
  refine fmt_numeric _ fun f hf c hc => ?_
  have key : ∀ x : ℚ, c ∈ showFixed 9 x → numeric c := fun x hc =>
    (showFixed_chars 9 x c hc).imp_right fun h => h.imp_right fun h => Or.inl h
  simp only [qLine, List.mem_cons, List.not_mem_nil, or_false] at hf
  rcases hf with rfl | rfl | rfl | rfl <;> exact key _ hc

theorem showInt_numeric (z : Int) : ∀ c ∈ showInt z, numeric c := by
  intro c hc
  have hd : ∀ c ∈ showNat z.natAbs, isDig c = true := fun c hc => by
    obtain ⟨d, hd, rfl⟩ := showNat_digits _ c hc
    exact isDig_digitChar d hd
  unfold showInt at hc
  split at hc
  · rw [List.mem_cons] at hc
    rcases hc with rfl | hc
    · exact Or.inr (Or.inr (Or.inl rfl))
    · exact Or.inl (hd c hc)
  · exact Or.inl (hd c hc)

theorem scanQ_skip (a : List Str) (h : ∀ l ∈ a, '/' ∉ l) (f : Nat) (ls : List Str) (r : Option (Int × List (Fin 4 → ℚ))) :
    scanQ (a.length + f) (a ++ ls) r = scanQ f ls r := by
  induction a with
  | nil => rw [List.length_nil, Nat.zero_add, List.nil_append]
  | cons l a ih =>
    rw [List.length_cons, show a.length + 1 + f = a.length + f + 1 by omega, List.cons_append, scanQ, if_neg (h l (by simp))]
    exact ih fun l hl => h l (by simp [hl])

theorem readQ_lines (q : List (Fin 4 → ℚ)) :
    readQ q.length (q.map fun q => fmt (qLine q) ++ ['\n']) = some (q.map fun q i => roundTo 9 (q i), []) := by
  induction q with
  | nil => rfl
  | cons q r ih =>
    have hs : ∀ f ∈ qLine q, Solid f.text := by
      intro f hf
      simp only [qLine, List.mem_cons, List.not_mem_nil, or_false] at hf
      rcases hf with rfl | rfl | rfl | rfl <;> exact showFixed_solid _ _
    have hfree : ∀ f ∈ (qLine q).tail, f.Free := by
      intro f hf
      simp only [qLine, List.tail_cons, List.mem_cons, List.not_mem_nil, or_false] at hf
      rcases hf with rfl | rfl | rfl <;> exact Or.inl Nat.one_pos
    have hw := words_fmt (qLine q) hs hfree
    simp only [qLine, List.map_cons, List.map_nil, fFixed] at hw
    simp only [List.length_cons, List.map_cons]
    rw [readQ]
    simp only [qLine, fFixed]
    rw [hw]
    simp only [List.getElem?_cons_zero, List.getElem?_cons_succ, Option.bind_eq_bind, Option.bind_some,
      readFloat_showFixed 9 (by decide)]
    have : readQ r.length (r.map fun q => fmt [⟨0, 12, showFixed 9 (q 0)⟩, ⟨1, 12, showFixed 9 (q 1)⟩,
      ⟨1, 12, showFixed 9 (q 2)⟩, ⟨1, 12, showFixed 9 (q 3)⟩] ++ ['\n']) = some (r.map fun q i => roundTo 9 (q i), []) := ih
    rw [this]
    simp only [Option.bind_some]
    refine congrArg some (Prod.ext ?_ rfl)
    simp only [List.cons.injEq, and_true]
    funext i
    fin_cases i <;> rfl

theorem reprItem_clean (rf : ℚ → Str) (i : Item) (h : ItemOk rf i) (P : Char → Prop) (hc : ∀ c, calm c = true → P c)
    (hs : ∀ s, i = .str s → (∀ c ∈ s, P c) ∧ P '\'') : ∀ c ∈ reprItem rf i, P c := by
  have hw := word_good rf 0 i h
  cases i with
  | str s =>
    rw [reprItem, reprStr_clean s h]
    obtain ⟨h1, h2⟩ := hs s rfl
    intro c hm
    simp only [List.mem_append, List.mem_cons, List.not_mem_nil, or_false] at hm
    rcases hm with (rfl | hm) | rfl
    · exact h2
    · exact h1 c hm
    · exact h2
  | int z => exact fun c hm => hc c (hw.calm c hm)
  | float x => exact fun c hm => hc c (hw.calm c hm)
  | bool b => exact fun c hm => hc c (hw.calm c hm)
  | none => exact h.elim

/-- **C121.** Parameters and points of `matdyn.x` which have been written are read without changes (apart from rounding to
nine decimals) unless there is a slash in one of the strings. -/
theorem C121_matdyn_partial (rf : ℚ → Str) (fuel : Nat) (hf : 2 ≤ fuel) (struct : Str → Option Val) (q : List (Fin 4 → ℚ))
    (h : ∀ k v, struct k = some v → ∃ i, v = .one i ∧ ItemOk rf i)
    (hs : ∀ k s, struct k = some (.one (.str s)) → '/' ∉ s) :
    ∃ d : Dict, readMatdyn fuel (writeMatdyn rf struct q.length q) = some (d, some ((q.length : Int), q.map fun q i => roundTo 9 (q i))) ∧
      ∀ k, d.lookup k = if k ∈ ["flfrc", "flfrq", "fldos", "fleig", "flvec", "asr", "loto_2d", "q_in_band_form",
        "q_in_cryst_coord"].map tx then struct k else none := by
  have hp : ∀ k ∈ [matdynKeys].flatten, Plain k := fun k hk =>
    plain_of k ((by decide +kernel : ∀ k ∈ [matdynKeys].flatten, plainB k = true) k hk)
  have hfine : Fine rf struct matdynKeys := fun k _ v hv => h k v hv
  have hgood : ∀ k ∈ matdynKeys, Good k := fun k hk => (hp k (by simpa using hk)).good
  have htail : TailOk ((fmt [fInt 0 0 q.length] ++ ['\n']) ++ q.flatMap fun q => fmt (qLine q) ++ ['\n']) := by
    have key : ∀ c ∈ (fmt [fInt 0 0 q.length] ++ ['\n']) ++ q.flatMap (fun q => fmt (qLine q) ++ ['\n']),
        isQuote c = false ∧ c ≠ '!' ∧ c ≠ '&' := by
      intro c hc
      simp only [List.mem_append, List.mem_flatMap, List.mem_singleton] at hc
      rcases hc with (hc | rfl) | ⟨q, _, hc | rfl⟩
      · have := numeric_props c (fmt_numeric _ (fun f hf c hc => by
          rw [List.mem_singleton] at hf
          subst hf
          exact showInt_numeric (q.length : Int) c hc) c hc)
        exact ⟨this.1, this.2.1, this.2.2.1⟩
      · decide
      · have := numeric_props c (qLine_numeric q c hc)
        exact ⟨this.1, this.2.1, this.2.2.1⟩
      · decide
    exact ⟨fun c hc => (key c hc).1, fun hc => (key _ hc).2.1 rfl, fun hc => (key _ hc).2.2 rfl⟩
  obtain ⟨d, hd, hk⟩ := read_groups rf fuel hf (tx "INPUT") (by decide +kernel) (by decide +kernel) struct [matdynKeys]
    (fun k _ v hv => h k v hv) hp (by decide +kernel) _ htail
  have e : tx "&INPUT\n" = '&' :: tx "INPUT" ++ ['\n'] := by decide +kernel
  have e' : tx "/\n" = ['/'] ++ ['\n'] := by decide +kernel
  have ht : writeMatdyn rf struct q.length q = '&' :: tx "INPUT" ++ '\n' :: (groups rf struct [matdynKeys] ++ ['/', '\n']) ++
      ((fmt [fInt 0 0 q.length] ++ ['\n']) ++ q.flatMap fun q => fmt (qLine q) ++ ['\n']) := by
    unfold writeMatdyn
    rw [e, e']
    simp only [groups, List.append_assoc, List.cons_append, List.nil_append]
  refine ⟨d, ?_, fun k => ?_⟩
  · have hkl := keyLines_text rf struct matdynKeys hfine
    -- lines of the namelist
    have hlt : ∀ k i, ItemOk rf i → lineText rf (some (k, i)) = (k ++ [' ', '=', ' '] ++ reprItem rf i) ++ ['\n'] := fun k i _ => rfl
    let F : Line → Str := fun l => match l with
      | some (k, i) => k ++ [' ', '=', ' '] ++ reprItem rf i
      | none => []
    have hF : ∀ l : Line, lineText rf l = F l ++ ['\n'] := by
      rintro (_ | ⟨k, i⟩) <;> rfl
    have hFm : ∀ l ∈ keyLines struct matdynKeys, '\n' ∉ F l ∧ '/' ∉ F l := by
      intro l hl
      have hok := keyLines_ok rf struct _ hfine hgood l hl
      rcases l with _ | ⟨k, i⟩
      · exact ⟨by simp [F], by simp [F]⟩
      · obtain ⟨_, hv⟩ := (mem_keyLines struct _ k i).1 hl
        have key : ∀ c ∈ F (some (k, i)), c ≠ '\n' ∧ c ≠ '/' := by
          have hcalm : ∀ c, calm c = true → c ≠ '\n' ∧ c ≠ '/' := by
            intro c hc
            have := (calm_iff c).1 hc
            refine ⟨fun e => ?_, this.2.2.2.1⟩
            rw [e] at this
            exact absurd this.1 (by decide)
          intro c hc
          simp only [F, List.mem_append, List.mem_cons, List.not_mem_nil, or_false] at hc
          rcases hc with (hc | rfl | rfl | rfl) | hc
          · exact hcalm c (hok.1.calm c hc)
          · decide
          · decide
          · decide
          · refine reprItem_clean rf i hok.2 (fun c => c ≠ '\n' ∧ c ≠ '/') hcalm (fun s e => ?_) c hc
            subst e
            refine ⟨fun c hc => ⟨(hok.2.escape c hc).2.1, fun e => hs k s hv (e ▸ hc)⟩, by decide⟩
        exact ⟨fun hm => (key _ hm).1 rfl, fun hm => (key _ hm).2 rfl⟩
    have hnl : ∀ l : List Field, (∀ c ∈ fmt l, numeric c) → '\n' ∉ fmt l := fun l hl hm => (numeric_props _ (hl _ hm)).2.2.2.2 rfl
    have hnum : ∀ c ∈ fmt [fInt 0 0 q.length], numeric c := fmt_numeric _ fun f hf c hc => by
      rw [List.mem_singleton] at hf
      subst hf
      exact showInt_numeric (q.length : Int) c hc
    have hlines : lines (writeMatdyn rf struct q.length q) = (tx "&INPUT" ++ ['\n']) :: ((keyLines struct matdynKeys).map
        fun l => F l ++ ['\n']) ++ (['/'] ++ ['\n']) :: (fmt [fInt 0 0 q.length] ++ ['\n']) ::
        q.map fun q => fmt (qLine q) ++ ['\n'] := by
      have et : writeMatdyn rf struct q.length q = tx "&INPUT" ++ '\n' :: (((keyLines struct matdynKeys).flatMap fun l => F l ++ ['\n']) ++
          (['/'] ++ '\n' :: (fmt [fInt 0 0 q.length] ++ '\n' :: ((q.flatMap fun q => fmt (qLine q) ++ ['\n']) ++ [])))) := by
        have e1 : tx "&INPUT\n" = tx "&INPUT" ++ ['\n'] := by decide +kernel
        have e2 : ((keyLines struct matdynKeys).flatMap fun l => F l ++ ['\n']) = entries rf struct matdynKeys := by
          rw [← hkl]
          exact List.flatMap_congr fun l _ => (hF l).symm
        unfold writeMatdyn
        rw [e1, e', e2]
        simp only [List.append_assoc, List.cons_append, List.nil_append, List.append_nil]
      rw [et, lines_line _ (by decide +kernel), lines_many F _ (fun l hl => (hFm l hl).1), lines_line _ (by decide),
        lines_line _ (hnl _ hnum), lines_many (fun q => fmt (qLine q)) _ (fun q _ => hnl _ (qLine_numeric q))]
      simp [lines, linesAux]
    have hscan : scanQ (lines (writeMatdyn rf struct q.length q)).length (lines (writeMatdyn rf struct q.length q)) none =
        some (some ((q.length : Int), q.map fun q i => roundTo 9 (q i))) := by
      rw [hlines]
      have hsk : ∀ l ∈ (tx "&INPUT" ++ ['\n']) :: ((keyLines struct matdynKeys).map fun l => F l ++ ['\n']), '/' ∉ l := by
        intro l hl
        rw [List.mem_cons, List.mem_map] at hl
        rcases hl with rfl | ⟨l, hl, rfl⟩
        · decide +kernel
        · rw [List.mem_append]
          exact fun e => e.elim (hFm l hl).2 (by decide)
      rw [List.length_append, scanQ_skip _ hsk, List.length_cons, List.length_cons]
      have hw : words (fmt [fInt 0 0 q.length] ++ ['\n']) = [showInt q.length] := by
        rw [words_fmt [fInt 0 0 q.length] (by
          intro f hf
          rw [List.mem_singleton] at hf
          subst hf
          exact showInt_solid (q.length : Int)) (by simp)]
        rfl
      have hnw : nextWords ((fmt [fInt 0 0 q.length] ++ ['\n']) :: q.map fun q => fmt (qLine q) ++ ['\n']) =
          some ([showInt q.length], q.map fun q => fmt (qLine q) ++ ['\n']) := by
        rw [nextWords, hw, if_neg (by simp)]
      rw [scanQ, if_pos (by decide), hnw]
      simp only [Option.bind_eq_bind, Option.bind_some, List.getElem?_cons_zero, readInt_showInt,
        if_neg (not_lt.2 (Int.natCast_nonneg q.length)), Int.toNat_natCast, readQ_lines]
      simp [scanQ]
    unfold readMatdyn
    rw [hscan, ht, hd]
    rfl
  · rw [hk]
    rfl

/-! ### Limits -/

/-- **C121 is violated** for paths: If there is a slash in the name of a file, the input file of `matdyn.x` written by
`write_matdyn` cannot be read by `read_matdyn`. -/
theorem C121_slash_violated : ∃ (struct : Str → Option Val) (q : List (Fin 4 → ℚ)),
    (∀ k v, struct k = some v → ∃ i, v = .one i ∧ ∀ rf, ItemOk rf i) ∧
      ∀ rf fuel, readMatdyn fuel (writeMatdyn rf struct q.length q) = none := by
  refine ⟨fun k => if k = tx "flfrc" then some (.one (.str (tx "a/b"))) else if k = tx "asr" then some (.one (.bool true)) else none,
    [], fun k v hv => ?_, fun rf fuel => ?_⟩
  · simp only at hv
    split_ifs at hv
    · refine ⟨_, (Option.some.inj hv).symm, fun rf => ⟨by decide, by decide, by decide, ?_⟩⟩
      exact noTriple_of_not_mem _ (by decide)
    · exact ⟨_, (Option.some.inj hv).symm, fun rf => trivial⟩
  · have hw : writeMatdyn rf (fun k => if k = tx "flfrc" then some (.one (.str (tx "a/b"))) else
        if k = tx "asr" then some (.one (.bool true)) else none) ([] : List (Fin 4 → ℚ)).length [] =
        tx "&INPUT\nflfrc = 'a/b'\nasr = True\n/\n0\n" := rfl
    have hs : scanQ (lines (tx "&INPUT\nflfrc = 'a/b'\nasr = True\n/\n0\n")).length
        (lines (tx "&INPUT\nflfrc = 'a/b'\nasr = True\n/\n0\n")) none = none := rfl
    unfold readMatdyn
    rw [hw, hs]
    cases readInput fuel (tx "&INPUT\nflfrc = 'a/b'\nasr = True\n/\n0\n") <;> rfl

/-- **C121 is violated** for exclamation marks: What follows an exclamation mark in a string is taken for a comment. -/
theorem C121_comment_violated : ∃ struct : Str → Option Val, struct (tx "prefix") = some (.one (.str (tx "a!b"))) ∧
    ∀ rf, ∃ d, readInput 2 (writePh rf struct) = some d ∧ d.lookup (tx "prefix") = some (.one (.str (tx "'a"))) := by
  refine ⟨fun k => if k = tx "prefix" then some (.one (.str (tx "a!b"))) else none, if_pos rfl, fun rf => ?_⟩
  have hw : writePh rf (fun k => if k = tx "prefix" then some (.one (.str (tx "a!b"))) else none) =
      tx "&INPUTPH\nprefix = 'a!b'\n\n\n\n/\n" := rfl
  rw [hw]
  exact ⟨[(tx "prefix", .one (.str (tx "'a")))], by decide +kernel, by decide +kernel⟩

theorem place_grows (g : List Str) (hg : g[0]? = some (tx "'___1___'")) (fuel n : Nat) :
    place fuel g (List.replicate n '\'' ++ (placeholder 1 ++ List.replicate n '\'')) = none := by
  induction fuel generalizing n with
  | zero => rfl
  | succ f ih =>
    have hq : ∀ m : Nat, placePass g 0 (List.replicate m '\'') = some (List.replicate m '\'', 0) := fun m =>
      placePass_none g _ (noTriple_of_not_mem _ (by simp))
    have hl : 0 < g.length := (List.getElem?_eq_some_iff.1 hg).1
    have hp : placePass g 0 (placeholder 1 ++ List.replicate n '\'') =
        some (tx "'___1___'" ++ List.replicate n '\'', 1) := by
      have e : placeholder 1 ++ List.replicate n '\'' = '_' :: '_' :: '_' :: '1' :: '_' :: '_' :: '_' :: List.replicate n '\'' := rfl
      have ha : placeAt ('_' :: '_' :: '_' :: '1' :: '_' :: '_' :: '_' :: List.replicate n '\'') = some ['1'] := by
        have hw : ('1' :: '_' :: '_' :: '_' :: List.replicate n '\'').takeWhile isDig = ['1'] := by
          rw [List.takeWhile_cons_of_pos (by decide), List.takeWhile_cons_of_neg (by decide)]
        unfold placeAt
        simp only [List.drop_succ_cons, List.drop_zero, hw]
        rfl
      have hi : pyIndex g.length (((readNat ['1']).getD 0 : Int) - 1) = some 0 := by
        have : ((readNat ['1']).getD 0 : Int) - 1 = 0 := by decide
        rw [this, pyIndex, if_pos ⟨le_refl _, by exact_mod_cast hl⟩]
        rfl
      have hs : placePass g (['1'].length + 5) ('_' :: '_' :: '1' :: '_' :: '_' :: '_' :: List.replicate n '\'') =
          some (List.replicate n '\'', 0) := hq n
      rw [e, placePass, ha]
      simp only [hi, hg, hs, Option.bind_eq_bind, Option.bind_some]
      rfl
    have hall : ∀ m : Nat, placePass g 0 (List.replicate m '\'' ++ (placeholder 1 ++ List.replicate n '\'')) =
        some (List.replicate m '\'' ++ (tx "'___1___'" ++ List.replicate n '\''), 1) := by
      intro m
      induction m with
      | zero => exact hp
      | succ m ihm =>
        rw [List.replicate_succ, List.cons_append, placePass]
        have : placeAt ('\'' :: (List.replicate m '\'' ++ (placeholder 1 ++ List.replicate n '\''))) = none := by
          unfold placeAt
          exact if_neg fun e => absurd (List.cons.inj e.1).1 (by decide)
        rw [this]
        simp only [ihm, Option.bind_eq_bind, Option.bind_some]
        rfl
    rw [place, hall n]
    simp only [Option.bind_eq_bind, Option.bind_some, one_ne_zero, if_false]
    have e : List.replicate n '\'' ++ (tx "'___1___'" ++ List.replicate n '\'') =
        List.replicate (n + 1) '\'' ++ (placeholder 1 ++ List.replicate (n + 1) '\'') := by
      have a : List.replicate (n + 1) '\'' = List.replicate n '\'' ++ ['\''] := List.replicate_succ'
      calc _ = List.replicate n '\'' ++ ('\'' :: (placeholder 1 ++ '\'' :: List.replicate n '\'')) := rfl
        _ = (List.replicate n '\'' ++ ['\'']) ++ (placeholder 1 ++ '\'' :: List.replicate n '\'') := by simp
        _ = _ := by
          rw [← a]
          rfl
    rw [e]
    exact ih (n + 1)

/-- **C121 is violated** for strings which look like the internal placeholders: reading never ends. -/
theorem C121_placeholder_violated : ∃ struct : Str → Option Val, struct (tx "prefix") = some (.one (.str (tx "___1___"))) ∧
    ∀ rf fuel, readInput fuel (writePh rf struct) = none := by
  refine ⟨fun k => if k = tx "prefix" then some (.one (.str (tx "___1___"))) else none, if_pos rfl, fun rf fuel => ?_⟩
  have hw : writePh rf (fun k => if k = tx "prefix" then some (.one (.str (tx "___1___"))) else none) =
      tx "&INPUTPH\nprefix = '___1___'\n\n\n\n/\n" := rfl
  have hp : protect (stripComments false (tx "&INPUTPH\nprefix = '___1___'\n\n\n\n/\n")).length []
      (stripComments false (tx "&INPUTPH\nprefix = '___1___'\n\n\n\n/\n")) =
        (tx "&INPUTPH\nprefix = ___1___\n\n\n\n/\n", [tx "'___1___'"]) := by decide +kernel
  have hn : namelists 0 (tx "&INPUTPH\nprefix = ___1___\n\n\n\n/\n") = [(tx "INPUTPH", tx "\nprefix = ___1___\n\n\n\n")] := by
    decide +kernel
  have hi : itemize (glue (spaceEq (tx "\nprefix = ___1___\n\n\n\n"))) = [tx "prefix", ['='], tx "___1___"] := by decide +kernel
  have hk : keyOf (tx "prefix") = (tx "prefix", 0) := by decide +kernel
  have hpl := place_grows [tx "'___1___'"] rfl fuel 0
  have hpl' : place fuel [tx "'___1___'"] (tx "___1___") = none := hpl
  have hc : content fuel [tx "'___1___'"] (tx "\nprefix = ___1___\n\n\n\n") = none := by
    unfold content
    rw [hi, scan_cons, if_pos (by rfl), scan_cons, if_neg (by decide +kernel), hk]
    simp only [if_true]
    rw [scan_cons, if_neg (by decide)]
    simp only [if_neg (by decide +kernel : ¬ tx "___1___" = ['=']), hpl']
    rfl
  unfold readInput readNamelists
  simp only
  rw [hw, hp]
  simp only
  rw [hn, parse, hc]
  rfl

/-- **C121.** The list read for a numbered parameter has the elements that have been written; those which Python takes for
false (`None`, zero, empty string) are replaced by `None` and dropped at the end. -/
theorem C121_blanks (key : Str) (hk : ListKey key) (l : List Item) :
    let r := ((collect [] (numLines key 1 l)).lookup key).getD []
    (∀ j : Nat, (r[j]?).getD .none = if falsy ((l[j]?).getD .none) then .none else (l[j]?).getD .none) ∧
      (∀ i, r.getLast? = some i → falsy i = false) := by
  have h := lookup_numLines key hk 0 l [] (by simp)
  have hr : ((collect [] (numLines key 1 l)).lookup key).getD [] = (trim l).map blank := by
    rw [h]
    split
    · next e => simp [e]
    · simp [pad]
  simp only [hr]
  clear hr h
  constructor
  · intro j
    induction l generalizing j with
    | nil => simp [trim, falsy]
    | cons i l ih =>
      rw [trim]
      split
      · next e =>
        cases j with
        | zero => simp [e.1]
        | succ j =>
          have := ih j
          rw [e.2] at this
          simpa using this
      · cases j with
        | zero => simp [blank]
        | succ j => simpa using ih j
  · induction l with
    | nil => simp [trim]
    | cons i l ih =>
      intro x hx
      rw [trim] at hx
      split at hx
      · simp at hx
      · next e =>
        rw [List.map_cons, List.getLast?_cons] at hx
        cases ht : ((trim l).map blank).getLast? with
        | some y =>
          rw [ht] at hx
          simp only [Option.getD_some, Option.some.injEq] at hx
          subst hx
          exact ih y ht
        | none =>
          rw [ht] at hx
          simp only [Option.getD_none, Option.some.injEq] at hx
          subst hx
          rw [List.getLast?_eq_none_iff, List.map_eq_nil_iff] at ht
          have hi : falsy i = false := by
            by_contra hc
            exact e ⟨by simpa using hc, ht⟩
          simpa [blank, hi] using hi

/-! ### Examples -/

/-- A representation of one half. -/
example : FloatRepr (tx "0.5") (1 / 2) := ⟨by decide, by decide, by decide, by decide +kernel⟩

/-- Representations with exponents. -/
example : FloatRepr (tx "1e-10") (1 / 10000000000) := ⟨by decide, by decide, by decide, by decide +kernel⟩

/-- The hypotheses of C121_ph are met by parameters of all types. -/
example : let rf : ℚ → Str := fun _ => tx "0.5"
    let struct : Str → Option Val := fun k => if k = tx "prefix" then some (.one (.str (tx "TaS2 & co/1"))) else
      if k = tx "ldisp" then some (.one (.bool true)) else if k = tx "nq1" then some (.one (.int 12)) else
      if k = tx "alpha_mix" then some (.one (.float (1 / 2))) else none
    (∀ k v, struct k = some v → ∃ i, v = .one i ∧ ItemOk rf i) ∧
      (readInput 2 (writePh rf struct)).map (fun d => d.lookup (tx "prefix")) = some (some (.one (.str (tx "TaS2 & co/1")))) := by
  refine ⟨fun k v hv => ?_, by decide +kernel⟩
  simp only at hv
  split_ifs at hv
  · exact ⟨_, (Option.some.inj hv).symm, by decide, by decide, by decide, noTriple_of_not_mem _ (by decide)⟩
  · exact ⟨_, (Option.some.inj hv).symm, trivial⟩
  · exact ⟨_, (Option.some.inj hv).symm, trivial⟩
  · exact ⟨_, (Option.some.inj hv).symm, by decide, by decide, by decide, by decide +kernel⟩

/-- The hypotheses of C121_q2r and C121_matdyn_partial are met. -/
example : let rf : ℚ → Str := fun _ => tx "0.5"
    let struct : Str → Option Val := fun k => if k = tx "flfrc" then some (.one (.str (tx "ifc"))) else none
    (∀ k v, struct k = some v → ∃ i, v = .one i ∧ ItemOk rf i) ∧
      (∀ k s, struct k = some (.one (.str s)) → '/' ∉ s) ∧
      (readMatdyn 2 (writeMatdyn rf struct 1 [![0, 1 / 2, 0, 1]])).map (fun d => d.2) =
        some (some (1, [![0, 1 / 2, 0, 1]])) := by
  refine ⟨fun k v hv => ?_, fun k s hv => ?_, by decide +kernel⟩
  · simp only at hv
    split_ifs at hv
    exact ⟨_, (Option.some.inj hv).symm, by decide, by decide, by decide, noTriple_of_not_mem _ (by decide)⟩
  · simp only at hv
    split_ifs at hv
    obtain rfl : tx "ifc" = s := by simpa using hv
    decide

/-- The hypotheses of C121_epw and C121_blanks are met. -/
example : let rf : ℚ → Str := fun _ => tx "0.5"
    let struct : Str → Option Val := fun k => if k = tx "proj" then some (.many [.str (tx "Ta:dz2")]) else
      if k = tx "nk1" then some (.one (.int 3)) else none
    (∀ k ∈ epwSingle.map tx, ∀ v, struct k = some v → ∃ i, v = .one i ∧ ItemOk rf i) ∧
      (∀ k ∈ ["proj", "wdata"].map tx, ∀ v, struct k = some v →
        ∃ l, v = .many l ∧ l ≠ [] ∧ ∀ i ∈ l, ItemOk rf i ∧ falsy i = false) ∧
      ListKey (tx "proj") ∧ (readEpw 2 (writeEpw rf struct)).map (fun d => d.lookup (tx "proj")) =
        some (some (.many [.str (tx "Ta:dz2")])) := by
  refine ⟨fun k hk v hv => ?_, fun k hk v hv => ?_, listKey_of _ (by decide +kernel) (by decide +kernel) (by decide), by decide +kernel⟩
  · simp only at hv
    have : k ≠ tx "proj" := fun e => by
      rw [e] at hk
      exact absurd hk (by decide +kernel)
    rw [if_neg this] at hv
    split_ifs at hv
    exact ⟨_, (Option.some.inj hv).symm, trivial⟩
  · simp only at hv
    have : k ≠ tx "nk1" := fun e => by
      rw [e] at hk
      exact absurd hk (by decide +kernel)
    rw [if_neg this] at hv
    split_ifs at hv
    refine ⟨_, (Option.some.inj hv).symm, by decide, fun i hi => ?_⟩
    rw [List.mem_singleton] at hi
    subst hi
    exact ⟨⟨by decide, by decide, by decide, noTriple_of_not_mem _ (by decide)⟩, by decide⟩

end Verif.Namelist
