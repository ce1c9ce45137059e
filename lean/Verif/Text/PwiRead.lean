import Verif.Text.PwiProps

/-!
# C122: input files of `pw.x`, assembly
-/

namespace Verif.Pwi

open Verif.Text Verif.Namelist

/-! ### Namelists -/

/-- Namelists of the input file. -/
def blocks (struct : Str → Option Val) : List Block :=
  [(tx "CONTROL", keyLines struct controlKeys),
    (tx "SYSTEM", numLines (tx "celldm") 1 (listOf (struct (tx "celldm"))) ++ keyLines struct systemKeys),
    (tx "ELECTRONS", keyLines struct electronsKeys)] ++
  (if calculation struct moving then
    (tx "IONS", keyLines struct ionsKeys) ::
      (if calculation struct varCell then [(tx "CELL", keyLines struct cellKeys)] else [])
  else [])

/-- Keys of all namelists. -/
def allKeys : List Str := controlKeys ++ systemKeys ++ electronsKeys ++ ionsKeys ++ cellKeys

theorem block_text (rf : ℚ → Str) (struct : Str → Option Val) (n : String) (keys : List Str) (h : Fine rf struct keys) :
    blockText rf (tx n, keyLines struct keys) = '&' :: tx n ++ '\n' :: (entries rf struct keys ++ ['/', '\n']) := by
  rw [blockText, keyLines_text rf struct keys h]

theorem writeLists_blocks (rf : ℚ → Str) (struct : Str → Option Val) (h : Fine rf struct allKeys) :
    writeLists rf struct = (blocks struct).flatMap (blockText rf) := by
  have f1 : Fine rf struct controlKeys := fun k hk => h k (by simp [allKeys, hk])
  have f2 : Fine rf struct systemKeys := fun k hk => h k (by simp [allKeys, hk])
  have f3 : Fine rf struct electronsKeys := fun k hk => h k (by simp [allKeys, hk])
  have f4 : Fine rf struct ionsKeys := fun k hk => h k (by simp [allKeys, hk])
  have f5 : Fine rf struct cellKeys := fun k hk => h k (by simp [allKeys, hk])
  have b1 := block_text rf struct "CONTROL" _ f1
  have b3 := block_text rf struct "ELECTRONS" _ f3
  have b4 := block_text rf struct "IONS" _ f4
  have b5 := block_text rf struct "CELL" _ f5
  have b2 : blockText rf (tx "SYSTEM", numLines (tx "celldm") 1 (listOf (struct (tx "celldm"))) ++ keyLines struct systemKeys) =
      '&' :: tx "SYSTEM" ++ '\n' :: (numberedOpt rf struct (tx "celldm") ++ entries rf struct systemKeys ++ ['/', '\n']) := by
    rw [blockText, numberedOpt_text, ← keyLines_text rf struct systemKeys f2]
    simp only [List.flatMap_append]
  have e1 : tx "&CONTROL\n" = '&' :: tx "CONTROL" ++ ['\n'] := by decide +kernel
  have e2 : tx "&SYSTEM\n" = '&' :: tx "SYSTEM" ++ ['\n'] := by decide +kernel
  have e3 : tx "&ELECTRONS\n" = '&' :: tx "ELECTRONS" ++ ['\n'] := by decide +kernel
  have e4 : tx "&IONS\n" = '&' :: tx "IONS" ++ ['\n'] := by decide +kernel
  have e5 : tx "&CELL\n" = '&' :: tx "CELL" ++ ['\n'] := by decide +kernel
  have e' : tx "/\n" = ['/', '\n'] := by decide +kernel
  unfold writeLists blocks
  rw [e1, e2, e3, e4, e5, e']
  simp only [List.flatMap_append, List.flatMap_cons, List.flatMap_nil, b1, b2, b3, List.append_assoc, List.append_nil,
    List.cons_append, List.nil_append]
  congr 12
  split
  · split
    · simp only [List.flatMap_cons, List.flatMap_nil, b4, b5, List.append_assoc, List.append_nil, List.cons_append, List.nil_append]
    · simp only [List.flatMap_cons, List.flatMap_nil, b4, List.append_assoc, List.append_nil, List.cons_append, List.nil_append]
  · rfl

/-- The numbers in the list `celldm` are not zero; absent ones (`None`) precede others. -/
def DimsOk (rf : ℚ → Str) (v : Option Val) : Prop :=
  ∀ w, v = some w → ∃ l : List Item, w = .many l ∧ (∀ i ∈ l, i = .none ∨ (ItemOk rf i ∧ falsy i = false)) ∧
    ∃ i, l.getLast? = some i ∧ falsy i = false

theorem trim_last (l : List Item) (i : Item) (h : l.getLast? = some i) (hi : falsy i = false) : trim l = l := by
  induction l with
  | nil => rfl
  | cons a l ih =>
    cases l with
    | nil =>
      simp only [List.getLast?_singleton, Option.some.injEq] at h
      subst h
      simp [trim, hi]
    | cons b l =>
      rw [List.getLast?_cons_cons] at h
      have := ih h
      rw [trim, this]
      simp

theorem map_blank (l : List Item) (h : ∀ i ∈ l, i = .none ∨ falsy i = false) : l.map blank = l := by
  refine (List.map_congr_left fun i hi => ?_).trans (List.map_id _)
  rcases h i hi with rfl | hf
  · rfl
  · simp [blank, hf]

theorem celldm_key : ListKey (tx "celldm") := listKey_of _ (by decide +kernel) (by decide +kernel) (by decide +kernel)

theorem plain_all : ∀ k ∈ allKeys, Plain k := fun k hk =>
  plain_of k ((by decide +kernel : ∀ k ∈ allKeys, plainB k = true) k hk)

/-- The value of `celldm` before it is put into a list. -/
def raw (struct : Str → Option Val) (k : Str) : Option Val :=
  if k = tx "celldm" then (struct k).map fun v => match v with
    | .many l => single l
    | v => v
  else struct k

theorem lookup_system (rf : ℚ → Str) (struct : Str → Option Val) (h : Fine rf struct systemKeys)
    (hc : DimsOk rf (struct (tx "celldm"))) (k : Str) :
    ((collect [] (numLines (tx "celldm") 1 (listOf (struct (tx "celldm"))) ++ keyLines struct systemKeys)).lookup k).map single =
      if k ∈ tx "celldm" :: systemKeys then raw struct k else none := by
  have hp : ∀ k ∈ systemKeys, Plain k := fun k hk => plain_all k (by simp [allKeys, hk])
  have n1 := names_numLines _ celldm_key (listOf (struct (tx "celldm")))
  have n2 := names_keyLines struct systemKeys hp
  rw [collect_append]
  by_cases h1 : k = tx "celldm"
  · subst h1
    rw [if_pos (by simp), lookup_collect_ne _ _ _ (n2.ne _ (by decide +kernel))]
    have := lookup_numLines _ celldm_key 0 (listOf (struct (tx "celldm"))) [] (by simp)
    rw [this, raw, if_pos rfl]
    cases hv : struct (tx "celldm") with
    | none => rfl
    | some v =>
      obtain ⟨l, rfl, hl, i, hi, hf⟩ := hc v hv
      have e := trim_last l i hi hf
      have e' := map_blank l fun i hi => (hl i hi).imp_right And.right
      have h0 : l ≠ [] := by
        rintro rfl
        simp at hi
      rw [listOf, e, if_neg h0, e']
      simp [pad]
  · by_cases h2 : k ∈ systemKeys
    · rw [if_pos (by simp [h2]), raw, if_neg h1, lookup_keyLines rf struct _ h hp (by decide +kernel) _ (fun k' hk' => ?_) k h2]
      · cases hv : struct k with
        | none => rfl
        | some v =>
          obtain ⟨i, rfl, _⟩ := h k h2 v hv
          rfl
      · rw [lookup_collect_ne _ _ _ (n1.ne k' ((by decide +kernel : ∀ k ∈ systemKeys, k ∉ [tx "celldm"]) k' hk'))]
        rfl
    · rw [if_neg (by simp [h1, h2]), lookup_collect_ne _ _ _ (n2.ne k h2), lookup_collect_ne _ _ _ (n1.ne k (by simpa using h1))]
      rfl

/-- Keys which are always written, `elphmod/bravais.py` 1911-1947. -/
def baseNames : List Str :=
  ["title", "prefix", "outdir", "pseudo_dir", "calculation", "tprnfor", "tstress", "nstep", "forc_conv_thr", "celldm", "ibrav",
    "ntyp", "nat", "a", "b", "c", "cosbc", "cosac", "cosab", "ecutwfc", "ecutrho", "nbnd", "occupations", "smearing", "degauss",
    "nosym", "noinv", "tot_charge", "assume_isolated", "nspin", "noncolin", "lspinorb", "tot_magnetization",
    "starting_magnetization", "space_group", "uniqueb", "origin_choice", "rhombohedral", "electron_maxstep", "conv_thr",
    "diagonalization", "diago_full_acc", "mixing_beta", "startingpot", "startingwfc", "scf_must_converge"].map tx

/-- Keys which are written, `elphmod/bravais.py` 1899-1967. -/
def written (struct : Str → Option Val) : List Str :=
  baseNames ++
  (if calculation struct [tx "relax", tx "md", tx "vc-relax", tx "vc-md"] then
    ["ion_dynamics", "upscale"].map tx ++
      (if calculation struct [tx "vc-relax", tx "vc-md"] then
        ["cell_dynamics", "cell_dofree", "press", "press_conv_thr"].map tx else [])
  else [])

theorem blockOk (rf : ℚ → Str) (struct : Str → Option Val) (h : Fine rf struct allKeys)
    (hc : DimsOk rf (struct (tx "celldm"))) : ∀ b ∈ blocks struct, BlockOk rf b := by
  have hk : ∀ keys : List Str, (∀ k ∈ keys, k ∈ allKeys) → ∀ l ∈ keyLines struct keys, LineOk rf l := fun keys hs =>
    keyLines_ok rf struct keys (fun k hk => h k (hs k hk)) fun k hk => (plain_all k (hs k hk)).good
  have h1 := hk controlKeys fun k hk => by simp [allKeys, hk]
  have h2 := hk systemKeys fun k hk => by simp [allKeys, hk]
  have h3 := hk electronsKeys fun k hk => by simp [allKeys, hk]
  have h4 := hk ionsKeys fun k hk => by simp [allKeys, hk]
  have h5 := hk cellKeys fun k hk => by simp [allKeys, hk]
  have hn : ∀ l ∈ numLines (tx "celldm") 1 (listOf (struct (tx "celldm"))), LineOk rf l := by
    refine numLines_ok rf _ celldm_key.good 1 _ fun i hi hf => ?_
    cases hv : struct (tx "celldm") with
    | none => simp [hv, listOf] at hi
    | some v =>
      obtain ⟨l, rfl, hl, _⟩ := hc v hv
      rw [hv] at hi
      rcases hl i hi with rfl | hl
      · simp [falsy] at hf
      · exact hl.1
  have mk : ∀ (n : Str) (ls : List Namelist.Line), n ≠ [] → (∀ c ∈ n, isWord c = true ∧ isQuote c = false ∧ c ≠ '!') →
      (∀ l ∈ ls, LineOk rf l) → BlockOk rf (n, ls) := fun _ _ h h' h'' => ⟨h, h', h''⟩
  intro b hb
  simp only [blocks, List.mem_append, List.mem_cons, List.not_mem_nil, or_false] at hb
  rcases hb with (rfl | rfl | rfl) | hb
  · exact mk _ _ (by decide +kernel) (by decide +kernel) h1
  · refine mk _ _ (by decide +kernel) (by decide +kernel) fun l hl => ?_
    rw [List.mem_append] at hl
    exact hl.elim (hn l) (h2 l)
  · exact mk _ _ (by decide +kernel) (by decide +kernel) h3
  · split at hb
    · rw [List.mem_cons] at hb
      rcases hb with rfl | hb
      · exact mk _ _ (by decide +kernel) (by decide +kernel) h4
      · split at hb
        · rw [List.mem_singleton] at hb
          subst hb
          exact mk _ _ (by decide +kernel) (by decide +kernel) h5
        · simp at hb
    · simp at hb

theorem or_step (struct : Str → Option Val) (k : Str) (A B : List Str) :
    ((if k ∈ B then struct k else none).or (if k ∈ A then struct k else none)) = if k ∈ A ++ B then struct k else none := by
  by_cases hB : k ∈ B
  · by_cases hA : k ∈ A
    · simp [hA, hB]
    · simp [hA, hB]
  · by_cases hA : k ∈ A
    · simp [hA, hB]
    · simp [hA, hB]

/-- The dictionary read from the namelists. -/
theorem read_lists (rf : ℚ → Str) (fuel : Nat) (hf : 2 ≤ fuel) (struct : Str → Option Val) (h : Fine rf struct allKeys)
    (hc : DimsOk rf (struct (tx "celldm"))) (t : Str) (ht : TailOk t) :
    ∃ d, readInput fuel (writeLists rf struct ++ t) = some d ∧
      ∀ k, (wrap d (tx "celldm")).lookup k = if k ∈ written struct then struct k else none := by
  have hnames : ((blocks struct).map fun b => b.1.map Char.toLower).Nodup := by
    unfold blocks
    split
    · split
      · simp only [List.map_append, List.map_cons, List.map_nil]
        decide +kernel
      · simp only [List.map_append, List.map_cons, List.map_nil]
        decide +kernel
    · simp only [List.map_append, List.map_cons, List.map_nil]
      decide +kernel
  obtain ⟨d, hd, hk⟩ := readInput_blocks rf fuel hf (blocks struct) (by simp [blocks]) (blockOk rf struct h hc) hnames t ht
  refine ⟨d, by rw [writeLists_blocks rf struct h, hd], fun k => ?_⟩
  have hraw : ∀ keys : List Str, (∀ k ∈ keys, k ∈ allKeys) → keys.Nodup → tx "celldm" ∉ keys →
      ((collect [] (keyLines struct keys)).lookup k).map single = if k ∈ keys then raw struct k else none := by
    intro keys hs hn h0
    rw [lookup_keys rf struct keys (fun k hk => h k (hs k hk)) (fun k hk => plain_all k (hs k hk)) hn]
    split
    · next hm => rw [raw, if_neg fun (e : k = tx "celldm") => h0 (e ▸ hm)]
    · rfl
  have h1 := hraw controlKeys (fun k hk => by simp [allKeys, hk]) (by decide +kernel) (by decide +kernel)
  have h3 := hraw electronsKeys (fun k hk => by simp [allKeys, hk]) (by decide +kernel) (by decide +kernel)
  have h4 := hraw ionsKeys (fun k hk => by simp [allKeys, hk]) (by decide +kernel) (by decide +kernel)
  have h5 := hraw cellKeys (fun k hk => by simp [allKeys, hk]) (by decide +kernel) (by decide +kernel)
  have h2 := lookup_system rf struct (fun k hk => h k (by simp [allKeys, hk])) hc k
  have base : controlKeys ++ tx "celldm" :: systemKeys ++ electronsKeys = baseNames := by decide +kernel
  have key : ∀ k', k' = k → d.lookup k' = if k' ∈ written struct then raw struct k' else none := by
    rintro _ rfl
    rw [hk]
    unfold blocks
    rw [List.foldl_append]
    simp only [List.foldl_cons, List.foldl_nil, h1, h2, h3]
    rw [Option.or_none, or_step, or_step, base]
    unfold written
    by_cases c1 : calculation struct moving = true
    · have c1' : calculation struct [tx "relax", tx "md", tx "vc-relax", tx "vc-md"] = true := c1
      rw [if_pos c1, if_pos c1']
      by_cases c2 : calculation struct varCell = true
      · have c2' : calculation struct [tx "vc-relax", tx "vc-md"] = true := c2
        rw [if_pos c2, if_pos c2']
        simp only [List.foldl_cons, List.foldl_nil, h4, h5]
        rw [or_step, or_step, List.append_assoc]
        rfl
      · have c2' : ¬ calculation struct [tx "vc-relax", tx "vc-md"] = true := c2
        rw [if_neg c2, if_neg c2']
        simp only [List.foldl_cons, List.foldl_nil, h4]
        rw [or_step, List.append_nil]
        rfl
    · have c1' : ¬ calculation struct [tx "relax", tx "md", tx "vc-relax", tx "vc-md"] = true := c1
      rw [if_neg c1, if_neg c1', List.append_nil]
      simp only [List.foldl_nil]
  rw [lookup_wrap]
  by_cases hkc : k = tx "celldm"
  · rw [if_pos hkc, key _ hkc.symm, hkc]
    have hm : tx "celldm" ∈ written struct := by
      unfold written
      rw [List.mem_append]
      exact Or.inl (by decide +kernel)
    rw [if_pos hm, if_pos hm, raw, if_pos rfl]
    cases hv : struct (tx "celldm") with
    | none => rfl
    | some v =>
      obtain ⟨l, rfl, _⟩ := hc v hv
      exact congrArg some (wrap_single l)
  · rw [if_neg hkc, key _ rfl, raw, if_neg hkc]

/-! ### Lines of the namelists -/

/-- Line of a namelist without its end. -/
def bare (rf : ℚ → Str) : Namelist.Line → Str
  | some (k, i) => k ++ [' ', '=', ' '] ++ reprItem rf i
  | none => []

theorem bare_text (rf : ℚ → Str) (l : Namelist.Line) : lineText rf l = bare rf l ++ ['\n'] := by
  rcases l with _ | ⟨k, i⟩ <;> rfl

theorem bare_newline (rf : ℚ → Str) (l : Namelist.Line) (h : LineOk rf l) : '\n' ∉ bare rf l := by
  rcases l with _ | ⟨k, i⟩
  · simp [bare]
  · have hcalm : ∀ c, calm c = true → c ≠ '\n' := by
      rintro c hc rfl
      exact absurd hc (by decide)
    have key : ∀ c ∈ bare rf (some (k, i)), c ≠ '\n' := by
      intro c hc
      simp only [bare, List.mem_append, List.mem_cons, List.not_mem_nil, or_false] at hc
      rcases hc with (hc | rfl | rfl | rfl) | hc
      · exact hcalm c (h.1.calm c hc)
      · decide
      · decide
      · decide
      · refine reprItem_clean rf i h.2 (fun c => c ≠ '\n') hcalm (fun s e => ?_) c hc
        subst e
        exact ⟨fun c hc => (h.2.escape c hc).2.1, by decide⟩
    exact fun hm => key _ hm rfl

theorem bare_words (rf : ℚ → Str) (k : Str) (i : Item) (h : Good k) : (words (lineText rf (some (k, i)))).head? = some k := by
  have hs : ∀ c ∈ k, isSpace c = false := fun c hc => ((calm_iff c).1 (h.calm c hc)).1
  have e : lineText rf (some (k, i)) = k ++ ' ' :: ('=' :: ' ' :: (reprItem rf i ++ ['\n'])) := by
    rw [bare_text, bare]
    simp
  rw [e, words, wordsAux_solid _ hs, List.nil_append, wordsAux_space _ _ h.ne]
  rfl

theorem lines_block (rf : ℚ → Str) (b : Block) (h : BlockOk rf b) (r : Str) : lines (blockText rf b ++ r) =
    ('&' :: b.1 ++ ['\n']) :: (b.2.map (lineText rf) ++ ['/', '\n'] :: lines r) := by
  have hn : '\n' ∉ '&' :: b.1 := by
    rw [List.mem_cons]
    rintro (e | e)
    · exact absurd e (by decide)
    · exact absurd (h.name _ e).1 (by decide)
  have e : blockText rf b ++ r = ('&' :: b.1) ++ '\n' :: ((b.2.flatMap fun l => bare rf l ++ ['\n']) ++ (['/'] ++ '\n' :: r)) := by
    rw [blockText, List.flatMap_congr fun l _ => bare_text rf l]
    simp
  rw [e, lines_line _ hn, lines_many (bare rf) _ (fun l hl => bare_newline rf l (h.lines l hl)), lines_line _ (by decide)]
  have : (b.2.map fun l => bare rf l ++ ['\n']) = b.2.map (lineText rf) := List.map_congr_left fun l _ => (bare_text rf l).symm
  rw [this]
  rfl

theorem lines_blocks (rf : ℚ → Str) (bs : List Block) (h : ∀ b ∈ bs, BlockOk rf b) (r : Str) :
    lines (bs.flatMap (blockText rf) ++ r) =
      (bs.flatMap fun b => ('&' :: b.1 ++ ['\n']) :: (b.2.map (lineText rf) ++ [['/', '\n']])) ++ lines r := by
  induction bs with
  | nil => rfl
  | cons b bs ih =>
    rw [List.flatMap_cons, List.append_assoc, lines_block rf b (h b (by simp)), ih fun b hb => h b (by simp [hb])]
    simp

theorem amp_word (s : Str) (h : ∀ c ∈ s, isWord c = true) : ∀ k, (words ('&' :: s ++ ['\n'])).head? = some k →
    k.map Char.toLower ∉ cardNames := by
  have hs : ∀ c ∈ '&' :: s, isSpace c = false := by
    intro c hc
    rw [List.mem_cons] at hc
    rcases hc with rfl | hc
    · decide
    · cases hsp : isSpace c with
      | false => rfl
      | true =>
        have hw := h c hc
        simp only [isSpace, Bool.or_eq_true, beq_iff_eq] at hsp
        rcases hsp with ((((rfl | rfl) | rfl) | rfl) | rfl) | rfl <;> exact absurd hw (by decide)
  have e : words ('&' :: s ++ ['\n']) = ['&' :: s] := by
    rw [words, wordsAux_solid _ hs, List.nil_append]
    simp [wordsAux, isSpace]
  intro k hk
  rw [e, List.head?_cons, Option.some.injEq] at hk
  subst hk
  intro hm
  have := (by decide +kernel : ∀ k ∈ cardNames, k.head? ≠ some '&') _ hm
  exact this rfl

theorem indexed_card (key : Str) (n : Nat) : (indexed key n).map Char.toLower ∉ cardNames := by
  intro hm
  have := (by decide +kernel : ∀ k ∈ cardNames, '(' ∉ k) _ hm
  apply this
  rw [List.mem_map]
  exact ⟨'(', by simp [indexed], by decide⟩

theorem mem_numLines (key : Str) (n : Nat) (l : List Item) (k : Str) (i : Item) (h : some (k, i) ∈ numLines key n l) :
    ∃ m, k = indexed key m := by
  induction l generalizing n with
  | nil => simp [numLines] at h
  | cons a l ih =>
    rw [numLines, List.mem_append] at h
    rcases h with h | h
    · split at h
      · simp at h
      · rw [List.mem_singleton, Option.some.injEq, Prod.mk.injEq] at h
        exact ⟨n, h.1⟩
    · exact ih (n + 1) h

/-- No line of a namelist is taken for the beginning of a card. -/
theorem lists_skip (rf : ℚ → Str) (struct : Str → Option Val) (h : Fine rf struct allKeys)
    (hc : DimsOk rf (struct (tx "celldm"))) :
    ∀ l ∈ (blocks struct).flatMap fun b => ('&' :: b.1 ++ ['\n']) :: (b.2.map (lineText rf) ++ [['/', '\n']]),
      ∀ k, (words l).head? = some k → k.map Char.toLower ∉ cardNames := by
  intro l hl
  rw [List.mem_flatMap] at hl
  obtain ⟨b, hb, hl⟩ := hl
  have hok := blockOk rf struct h hc b hb
  rw [List.mem_cons, List.mem_append, List.mem_map, List.mem_singleton] at hl
  rcases hl with rfl | ⟨x, hx, rfl⟩ | rfl
  · exact amp_word b.1 fun c hc => (hok.name c hc).1
  · rcases x with _ | ⟨k', i⟩
    · intro k hk
      have : words (lineText rf none) = [] := rfl
      simp [this] at hk
    · intro k hk
      rw [bare_words rf k' i (hok.lines _ hx).1, Option.some.injEq] at hk
      subst hk
      have hkeys : ∀ keys : List Str, (∀ k ∈ keys, k ∈ allKeys) → some (k', i) ∈ keyLines struct keys →
          k'.map Char.toLower ∉ cardNames := fun keys hs hm =>
        (by decide +kernel : ∀ k ∈ allKeys, k.map Char.toLower ∉ cardNames) k' (hs k' ((mem_keyLines struct keys k' i).1 hm).1)
      simp only [blocks, List.mem_append, List.mem_cons, List.not_mem_nil, or_false] at hb
      rcases hb with (rfl | rfl | rfl) | hb
      · exact hkeys controlKeys (fun k hk => by simp [allKeys, hk]) hx
      · rw [List.mem_append] at hx
        rcases hx with hx | hx
        · obtain ⟨m, rfl⟩ := mem_numLines _ _ _ _ _ hx
          exact indexed_card _ m
        · exact hkeys systemKeys (fun k hk => by simp [allKeys, hk]) hx
      · exact hkeys electronsKeys (fun k hk => by simp [allKeys, hk]) hx
      · split at hb
        · rw [List.mem_cons] at hb
          rcases hb with rfl | hb
          · exact hkeys ionsKeys (fun k hk => by simp [allKeys, hk]) hx
          · split at hb
            · rw [List.mem_singleton] at hb
              subst hb
              exact hkeys cellKeys (fun k hk => by simp [allKeys, hk]) hx
            · simp at hb
        · simp at hb
  · intro k hk
    have : words ['/', '\n'] = [['/']] := rfl
    rw [this] at hk
    simp only [List.head?_cons, Option.some.injEq] at hk
    subst hk
    decide +kernel

end Verif.Pwi
