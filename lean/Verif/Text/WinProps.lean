import Verif.Text.Win

/-!
# C123: input files of Wannier90
-/

namespace Verif.Win

open Verif.Text Verif.Namelist Verif.Pwi

/-! ### Lines and words -/

/-- Text of one line. -/
def IsLine (l : Str) : Prop := ∃ x, l = x ++ ['\n'] ∧ '\n' ∉ x

theorem lines_flatten (L : List Str) (h : ∀ l ∈ L, IsLine l) : lines L.flatten = L := by
  induction L with
  | nil => rfl
  | cons l L ih =>
    obtain ⟨x, rfl, hx⟩ := h l (by simp)
    rw [List.flatten_cons, List.append_assoc, List.singleton_append, lines_line _ hx, ih fun l hl => h l (by simp [hl])]

theorem splitEq_plain (w acc : Str) (h : '=' ∉ w) : splitEq acc w = [acc ++ w] := by
  induction w generalizing acc with
  | nil => simp [splitEq]
  | cons c w ih =>
    rw [List.mem_cons, not_or] at h
    rw [splitEq, if_neg (fun e => h.1 e.symm), ih _ h.2]
    simp

/-- Parts of a word. -/
def parts (c : Str) : List Str := (splitEq [] c).filter (· ≠ [])

theorem parts_plain (w : Str) (h0 : w ≠ []) (h : '=' ∉ w) : parts w = [w] := by
  rw [parts, splitEq_plain w [] h]
  simp [h0]

theorem winWords_line (l : List Field) (h1 : ∀ f ∈ l, Solid f.text) (h2 : ∀ f ∈ l.tail, f.Free) :
    winWords (line l) = (l.map Field.text).flatMap parts := by
  rw [winWords, line, words_fmt l h1 h2]
  rfl

theorem line_isLine (l : List Field) (h1 : ∀ f ∈ l, Solid f.text) : IsLine (line l) := ⟨fmt l, rfl, fmt_newline l h1⟩

theorem numeric_eq (w : Str) (h : ∀ c ∈ w, numeric c) : '=' ∉ w := fun e => by
  rcases h _ e with h | h | h | h
  · exact absurd h (by decide)
  · exact absurd h (by decide)
  · exact absurd h (by decide)
  · exact absurd h (by decide)

theorem parts_int (z : Int) : parts (showInt z) = [showInt z] :=
  parts_plain _ (showInt_solid z).1 (numeric_eq _ (showInt_numeric z))

/-! ### Trimmed text -/

/-- Text without surrounding white space. -/
def Trim (v : Str) : Prop := (∀ c, v.head? = some c → isSpace c = false) ∧ ∀ c, v.getLast? = some c → isSpace c = false

theorem dropWhile_head (v w : Str) (h0 : v ≠ []) (h : ∀ c, v.head? = some c → isSpace c = false) :
    (v ++ w).dropWhile isSpace = v ++ w := by
  cases v with
  | nil => exact absurd rfl h0
  | cons c v => rw [List.cons_append, List.dropWhile_cons_of_neg (by simp [h c rfl])]

theorem strip_pad (a v b : Str) (ha : ∀ c ∈ a, isSpace c = true) (hb : ∀ c ∈ b, isSpace c = true) (hv : Trim v) :
    strip (a ++ v ++ b) = v := by
  unfold strip
  rw [List.append_assoc, List.dropWhile_append_of_pos ha]
  by_cases h0 : v = []
  · subst h0
    have e : b.dropWhile isSpace = [] := by simpa using List.dropWhile_append_of_pos (l₂ := []) hb
    rw [List.nil_append, e]
    rfl
  · rw [dropWhile_head v b h0 hv.1, List.reverse_append, List.dropWhile_append_of_pos (by simpa using hb)]
    have := dropWhile_head v.reverse [] (by simpa using h0) (by
      intro c hc
      rw [List.head?_reverse] at hc
      exact hv.2 c hc)
    rw [List.append_nil] at this
    rw [this, List.reverse_reverse]

/-! ### Loop -/

/-- After some steps of the loop, the given lines remain and the given data has been read. -/
def Reach (ls : List Str) (s : Data) (ls' : List Str) (s' : Data) : Prop :=
  ∀ f, ls.length ≤ f → ∃ f', ls'.length ≤ f' ∧ loop f ls s = loop f' ls' s'

theorem Reach.refl (ls : List Str) (s : Data) : Reach ls s ls s := fun f hf => ⟨f, hf, rfl⟩

theorem Reach.trans {l1 l2 l3 : List Str} {s1 s2 s3 : Data} (h : Reach l1 s1 l2 s2) (h' : Reach l2 s2 l3 s3) :
    Reach l1 s1 l3 s3 := fun f hf => by
  obtain ⟨f', hf', e⟩ := h f hf
  obtain ⟨f'', hf'', e'⟩ := h' f' hf'
  exact ⟨f'', hf'', e.trans e'⟩

theorem Reach.step {l : Str} {ls ls' : List Str} {s s' : Data} (h : readEntry (winWords l) ls s = some (s', ls'))
    (hl : ls'.length ≤ ls.length) : Reach (l :: ls) s ls' s' := fun f hf => by
  rw [List.length_cons] at hf
  obtain ⟨f, rfl⟩ : ∃ g, f = g + 1 := ⟨f - 1, by omega⟩
  exact ⟨f, by omega, by rw [loop, h]; rfl⟩

/-- Keys with a meaning. -/
def keys : List Str := intKeys ++ floatKeys ++ boolKeys ++ [tx "mp_grid", tx "begin"]

theorem Reach.skip {l : Str} {ls : List Str} {s : Data} (h : ∀ k, (winWords l).head? = some k → k.map Char.toLower ∉ keys) :
    Reach (l :: ls) s ls s := by
  refine Reach.step ?_ le_rfl
  cases hw : winWords l with
  | nil => rfl
  | cons k w =>
    have := h k (by simp [hw])
    simp only [keys, List.mem_append, List.mem_cons, List.not_mem_nil, or_false, not_or] at this
    unfold readEntry
    simp only [if_neg this.1.1.1, if_neg this.1.1.2, if_neg this.1.2, if_neg this.2.1, if_neg this.2.2]

theorem Reach.blank (ls : List Str) (s : Data) : Reach (['\n'] :: ls) s ls s := by
  refine Reach.skip ?_
  have : winWords ['\n'] = [] := rfl
  simp [this]

/-! ### Parameters -/

/-- Keys which are written. -/
def written : List Str :=
  ["num_bands", "num_wann", "dis_win_min", "dis_win_max", "dis_froz_min", "dis_froz_max", "write_hr", "bands_plot",
    "dis_num_iter", "num_iter", "search_shells"].map tx

/-- Parameters have the expected types. -/
structure ParamsOk (rf : ℚ → Str) (struct : Str → Option Item) : Prop where
  int : ∀ k ∈ ["num_bands", "num_wann", "dis_num_iter", "num_iter", "search_shells"].map tx, ∀ i, struct k = some i →
    ∃ z, i = .int z
  float : ∀ k ∈ ["dis_win_min", "dis_win_max", "dis_froz_min", "dis_froz_max"].map tx, ∀ i, struct k = some i →
    ∃ x, i = .float x ∧ FloatRepr (rf x) x
  bool : ∀ k ∈ ["write_hr", "bands_plot"].map tx, ∀ i, struct k = some i → ∃ b, i = .bool b

/-- Lines with parameters. -/
def paramLines (rf : ℚ → Str) (struct : Str → Option Item) (keys : List Str) : List Str :=
  keys.filterMap fun k => (struct k).map fun i => entry k (reprItem rf i)

theorem paramLines_text (rf : ℚ → Str) (struct : Str → Option Item) (keys : List Str) :
    params rf struct keys = (paramLines rf struct keys).flatten := by
  induction keys with
  | nil => rfl
  | cons k keys ih =>
    unfold params paramLines at *
    rw [List.flatMap_cons, List.filterMap_cons, ih]
    cases struct k <;> rfl

theorem entry_line (k v : Str) : entry k v = line [fWord 0 0 k, fWord 1 0 ['='], fWord 1 0 v] := by
  simp [entry, line, fmt, fWord, padLeft, padWith]

theorem entry_solid (k v : Str) (hk : Solid k) (hv : Solid v) : ∀ f ∈ [fWord 0 0 k, fWord 1 0 ['='], fWord 1 0 v], Solid f.text := by
  intro f hf
  simp only [List.mem_cons, List.not_mem_nil, or_false] at hf
  rcases hf with rfl | rfl | rfl
  · exact hk
  · exact ⟨by simp [fWord], by simp only [fWord]; decide⟩
  · exact hv

theorem entry_words (k v : Str) (hk : Solid k) (hv : Solid v) (ek : '=' ∉ k) (ev : '=' ∉ v) : winWords (entry k v) = [k, v] := by
  rw [entry_line, winWords_line _ (entry_solid k v hk hv)]
  · have e : parts ['='] = [] := rfl
    simp [fWord, e, parts_plain k hk.1 ek, parts_plain v hv.1 ev]
  · intro f hf
    simp only [List.tail_cons, List.mem_cons, List.not_mem_nil, or_false] at hf
    rcases hf with rfl | rfl <;> exact Or.inl Nat.one_pos

theorem key_solid : ∀ k ∈ written, (k ≠ [] ∧ (∀ c ∈ k, isSpace c = false)) ∧ '=' ∉ k ∧ k.map Char.toLower = k := by decide +kernel

theorem repr_solid (rf : ℚ → Str) (struct : Str → Option Item) (h : ParamsOk rf struct) (k : Str) (hk : k ∈ written) (i : Item)
    (hi : struct k = some i) : Solid (reprItem rf i) ∧ '=' ∉ reprItem rf i := by
  have hcase : k ∈ ["num_bands", "num_wann", "dis_num_iter", "num_iter", "search_shells"].map tx ∨
      k ∈ ["dis_win_min", "dis_win_max", "dis_froz_min", "dis_froz_max"].map tx ∨ k ∈ ["write_hr", "bands_plot"].map tx :=
    (by decide +kernel : ∀ k ∈ written, k ∈ ["num_bands", "num_wann", "dis_num_iter", "num_iter", "search_shells"].map tx ∨
      k ∈ ["dis_win_min", "dis_win_max", "dis_froz_min", "dis_froz_max"].map tx ∨ k ∈ ["write_hr", "bands_plot"].map tx) k hk
  rcases hcase with hm | hm | hm
  · obtain ⟨z, rfl⟩ := h.int k hm i hi
    exact ⟨showInt_solid z, numeric_eq _ (showInt_numeric z)⟩
  · obtain ⟨x, rfl, hx⟩ := h.float k hm i hi
    have key : ∀ c ∈ rf x, isSpace c = false ∧ c ≠ '=' := by
      intro c hc
      rcases hx.chars c hc with h | rfl | rfl | rfl | rfl
      · obtain ⟨d, hd, rfl⟩ := (isDig_iff c).1 h
        have : ∀ d : Fin 10, isSpace (digitChar d) = false ∧ digitChar d ≠ '=' := by decide
        exact this ⟨d, hd⟩
      all_goals decide
    exact ⟨⟨hx.ne, fun c hc => (key c hc).1⟩, fun e => (key _ e).2 rfl⟩
  · obtain ⟨b, rfl⟩ := h.bool k hm i hi
    cases b
    · exact ⟨⟨by simp [reprItem], by simp only [reprItem]; decide⟩, by simp only [reprItem]; decide⟩
    · exact ⟨⟨by simp [reprItem], by simp only [reprItem]; decide⟩, by simp only [reprItem]; decide⟩

theorem paramLines_line (rf : ℚ → Str) (struct : Str → Option Item) (h : ParamsOk rf struct) (ks : List Str)
    (hk : ∀ k ∈ ks, k ∈ written) : ∀ l ∈ paramLines rf struct ks, IsLine l := by
  intro l hl
  rw [paramLines, List.mem_filterMap] at hl
  obtain ⟨k, hm, e⟩ := hl
  cases hi : struct k with
  | none => simp [hi] at e
  | some i =>
    rw [hi, Option.map_some, Option.some.injEq] at e
    subst e
    rw [entry_line]
    exact line_isLine _ (entry_solid k _ (key_solid k (hk k hm)).1 (repr_solid rf struct h k (hk k hm) i hi).1)

theorem read_param (rf : ℚ → Str) (struct : Str → Option Item) (h : ParamsOk rf struct) (k : Str) (hk : k ∈ written) (i : Item)
    (hi : struct k = some i) (ls : List Str) (s : Data) :
    readEntry [k, reprItem rf i] ls s = some ({ s with params := Function.update s.params k (some i) }, ls) := by
  have hlow := (key_solid k hk).2.2
  have hcase : k ∈ intKeys ∨ (k ∉ intKeys ∧ k ∈ floatKeys) ∨ (k ∉ intKeys ∧ k ∉ floatKeys ∧ k ∈ boolKeys ∧ k ∈ ["write_hr", "bands_plot"].map tx) :=
    (by decide +kernel : ∀ k ∈ written, k ∈ intKeys ∨ (k ∉ intKeys ∧ k ∈ floatKeys) ∨ (k ∉ intKeys ∧ k ∉ floatKeys ∧ k ∈ boolKeys ∧ k ∈ ["write_hr", "bands_plot"].map tx)) k hk
  unfold readEntry
  simp only [hlow]
  rcases hcase with hm | ⟨h1, hm⟩ | ⟨h1, h2, hm, hm'⟩
  · obtain ⟨z, rfl⟩ := h.int k hm i hi
    rw [if_pos hm]
    simp only [List.getElem?_cons_succ, List.getElem?_cons_zero, reprItem, readInt_showInt, Option.bind_eq_bind, Option.bind_some]
    rfl
  · obtain ⟨x, rfl, hx⟩ := h.float k hm i hi
    rw [if_neg h1, if_pos hm]
    simp only [fl, List.getElem?_cons_succ, List.getElem?_cons_zero, reprItem, hx.value, Option.bind_eq_bind, Option.bind_some]
    rfl
  · obtain ⟨b, rfl⟩ := h.bool k hm' i hi
    rw [if_neg h1, if_neg h2, if_pos hm]
    cases b <;> rfl

theorem reach_params (rf : ℚ → Str) (struct : Str → Option Item) (h : ParamsOk rf struct) (ks : List Str)
    (hk : ∀ k ∈ ks, k ∈ written) (ls : List Str) (s : Data) :
    Reach (paramLines rf struct ks ++ ls) s ls
      { s with params := fun k => if k ∈ ks then (struct k).or (s.params k) else s.params k } := by
  induction ks generalizing s with
  | nil => exact Reach.refl ls s
  | cons a ks ih =>
    have ih := fun s => ih (fun k hk' => hk k (by simp [hk'])) s
    cases hi : struct a with
    | none =>
      have e : paramLines rf struct (a :: ks) = paramLines rf struct ks := by
        rw [paramLines, List.filterMap_cons, hi]
        rfl
      have e' : (fun k => if k ∈ a :: ks then (struct k).or (s.params k) else s.params k) =
          fun k => if k ∈ ks then (struct k).or (s.params k) else s.params k := by
        funext k
        by_cases ha : k = a
        · subst ha
          simp [hi]
        · simp [ha]
      rw [e, e']
      exact ih s
    | some i =>
      have e : paramLines rf struct (a :: ks) = entry a (reprItem rf i) :: paramLines rf struct ks := by
        rw [paramLines, List.filterMap_cons, hi]
        rfl
      have hka := hk a (by simp)
      have hr := repr_solid rf struct h a hka i hi
      have h1 : Reach (entry a (reprItem rf i) :: (paramLines rf struct ks ++ ls)) s (paramLines rf struct ks ++ ls)
          { s with params := Function.update s.params a (some i) } := by
        refine Reach.step ?_ le_rfl
        rw [entry_words a _ (key_solid a hka).1 hr.1 (key_solid a hka).2.1 hr.2]
        exact read_param rf struct h a hka i hi _ s
      have h2 := h1.trans (ih _)
      have e' : (fun k => if k ∈ ks then (struct k).or (Function.update s.params a (some i) k) else
          Function.update s.params a (some i) k) = fun k => if k ∈ a :: ks then (struct k).or (s.params k) else s.params k := by
        funext k
        by_cases ha : k = a
        · subst ha
          simp [hi]
        · simp [ha, Function.update]
      rw [e, List.cons_append, ← e']
      exact h2

/-! ### Blocks -/

/-- Lines of a block. -/
def blockLines (name : Str) (L : List Str) : List Str :=
  if L = [] then [] else (tx "begin " ++ name ++ ['\n']) :: (L ++ [tx "end " ++ name ++ ['\n']])

theorem blockLines_text (name : Str) (L : List Str) : block name L = (blockLines name L).flatten := by
  unfold block blockLines
  split <;> simp

/-- Projections that can be written. -/
structure ProjOk (p : Str × Str) : Prop where
  trim : Trim p.1 ∧ Trim p.2
  colon : ':' ∉ p.1
  newline : '\n' ∉ p.1 ∧ '\n' ∉ p.2
  end_ : has (tx "end") (p.1 ++ [':', ' '] ++ p.2 ++ ['\n']) = false

theorem readProj_lines (proj : List (Str × Str)) (h : ∀ p ∈ proj, ProjOk p) (d : List (Str × Str))
    (hn : (d.map Prod.fst ++ proj.map Prod.fst).Nodup) (e : Str) (he : has (tx "end") e = true) (r : List Str) :
    readProj (proj.map projLine ++ e :: r) d = some (d ++ proj, r) := by
  induction proj generalizing d with
  | nil => simp [readProj, he]
  | cons p proj ih =>
    have hp := h p (by simp)
    have e1 : projLine p = p.1 ++ ':' :: (' ' :: p.2 ++ ['\n']) := by simp [projLine]
    have hc : ':' ∈ projLine p := by simp [e1]
    have ht := takeWhile_append (p := fun c => decide (c ≠ ':')) p.1 ':' (' ' :: p.2 ++ ['\n'])
      (fun c hc => by
        have : c ≠ ':' := fun e => hp.colon (e ▸ hc)
        simpa using this) (by simp)
    have s1 : strip p.1 = p.1 := by
      have := strip_pad [] p.1 [] (by simp) (by simp) hp.trim.1
      simpa using this
    have s2 : strip (' ' :: p.2 ++ ['\n']) = p.2 := strip_pad [' '] p.2 ['\n'] (by decide) (by decide) hp.trim.2
    have hnew : p.1 ∉ d.map Prod.fst := by
      intro hm
      rw [List.nodup_append] at hn
      exact hn.2.2 _ hm _ (by simp) rfl
    rw [List.map_cons, List.cons_append, readProj, if_neg (by rw [projLine, hp.end_]; simp), if_pos hc, e1, ht.1, ht.2, s1,
      List.drop_one, List.tail_cons, s2, put_new _ _ _ hnew, ih (fun p hp => h p (by simp [hp]))]
    · simp
    · simpa using hn

theorem begin_line (name : Str) : tx "begin " ++ name ++ ['\n'] = line [fWord 0 0 (tx "begin"), fWord 1 0 name] := by
  have e : tx "begin " = tx "begin" ++ [' '] := by decide +kernel
  rw [e]
  simp [line, fmt, fWord, padLeft, padWith]

theorem two_solid (a b : Str) (ha : Solid a) (hb : Solid b) : ∀ f ∈ [fWord 0 0 a, fWord 1 0 b], Solid f.text := by
  intro f hf
  simp only [List.mem_cons, List.not_mem_nil, or_false] at hf
  rcases hf with rfl | rfl
  · exact ha
  · exact hb

theorem begin_words (name : Str) (h : Solid name) (he : '=' ∉ name) : winWords (tx "begin " ++ name ++ ['\n']) = [tx "begin", name] := by
  have hb : Solid (tx "begin") := ⟨by decide +kernel, by decide +kernel⟩
  rw [begin_line, winWords_line _ (two_solid _ _ hb h)]
  · have e : parts (tx "begin") = [tx "begin"] := by decide +kernel
    simp [fWord, e, parts_plain name h.1 he]
  · intro f hf
    simp only [List.tail_cons, List.mem_cons, List.not_mem_nil, or_false] at hf
    subst hf
    exact Or.inl Nat.one_pos

theorem end_line (name : Str) : tx "end " ++ name ++ ['\n'] = line [fWord 0 0 (tx "end"), fWord 1 0 name] := by
  have e : tx "end " = tx "end" ++ [' '] := by decide +kernel
  rw [e]
  simp [line, fmt, fWord, padLeft, padWith]

theorem end_raw (name : Str) (h : Solid name) : words (tx "end " ++ name ++ ['\n']) = [tx "end", name] := by
  have hb : Solid (tx "end") := ⟨by decide +kernel, by decide +kernel⟩
  rw [end_line, line, words_fmt _ (two_solid _ _ hb h)]
  · rfl
  · intro f hf
    simp only [List.tail_cons, List.mem_cons, List.not_mem_nil, or_false] at hf
    subst hf
    exact Or.inl Nat.one_pos

theorem readEntry_begin (name : Str) (ls : List Str) (s : Data) : readEntry [tx "begin", name] ls s =
    if name = tx "projections" then do
      let r ← readProj ls []
      pure ({ s with proj := some r.1 }, r.2)
    else if name = tx "kpoint_path" then do
      let r ← readPath ls
      pure ({ s with path := some r.1 }, r.2)
    else if name = tx "unit_cell_cart" then
      match ls with
      | a :: b :: c :: ls => do
        let x ← row3 a
        let y ← row3 b
        let z ← row3 c
        pure ({ s with cell := some ![x, y, z] }, ls)
      | _ => none
    else if (tx "atoms_").isPrefixOf name then do
      let r ← readTmp ls
      let a ← r.1.mapM readAtom
      pure ({ s with atoms := some (name.drop 6, a) }, r.2)
    else if name = tx "kpoints" then do
      let g ← s.grid
      if g.1 * g.2.1 * g.2.2 < 0 then none
      let r ← readPoints (g.1 * g.2.1 * g.2.2).toNat ls
      pure ({ s with kpoints := some r.1 }, r.2)
    else pure (s, ls) := by
  have hkey : (tx "begin").map Char.toLower = tx "begin" := by decide +kernel
  have h1 : tx "begin" ∉ intKeys := by decide +kernel
  have h2 : tx "begin" ∉ floatKeys := by decide +kernel
  have h3 : tx "begin" ∉ boolKeys := by decide +kernel
  have h4 : tx "begin" ≠ tx "mp_grid" := by decide +kernel
  unfold readEntry
  simp only [hkey, if_neg h1, if_neg h2, if_neg h3, if_neg h4, if_true, List.getElem?_cons_succ, List.getElem?_cons_zero,
    Option.bind_eq_bind, Option.bind_some]
  rfl

theorem reach_proj (proj : List (Str × Str)) (h : ∀ p ∈ proj, ProjOk p) (hn : (proj.map Prod.fst).Nodup) (ls : List Str)
    (s : Data) : Reach (blockLines (tx "projections") (proj.map projLine) ++ ls) s ls
      { s with proj := if proj = [] then s.proj else some proj } := by
  unfold blockLines
  by_cases h0 : proj = []
  · subst h0
    exact Reach.refl ls s
  · rw [if_neg (by simpa using h0), if_neg h0, List.cons_append, List.append_assoc (proj.map projLine), List.singleton_append]
    refine Reach.step ?_ (by simp; omega)
    rw [begin_words _ ⟨by decide +kernel, by decide +kernel⟩ (by decide +kernel), readEntry_begin, if_pos rfl,
      readProj_lines proj h [] (by simpa using hn) _ (by decide +kernel)]
    rfl

/-- Lines of paths that can be written. -/
structure PathOk (l : Str) : Prop where
  trim : Trim l
  newline : '\n' ∉ l
  end_ : (tx "end").isPrefixOf l = false

theorem readPath_lines (path : List Str) (h : ∀ l ∈ path, PathOk l) (r : List Str) :
    readPath (path.map (· ++ ['\n']) ++ (tx "end " ++ tx "kpoint_path" ++ ['\n']) :: r) = some (path, r) := by
  induction path with
  | nil =>
    have : (tx "end").isPrefixOf (strip (tx "end " ++ tx "kpoint_path" ++ ['\n'])) = true := by decide +kernel
    rw [List.map_nil, List.nil_append, readPath, if_pos this]
  | cons l path ih =>
    have hl := h l (by simp)
    have hs : strip (l ++ ['\n']) = l := strip_pad [] l ['\n'] (by simp) (by decide) hl.trim
    rw [List.map_cons, List.cons_append, readPath, hs, if_neg (by simp [hl.end_]), ih fun l hl => h l (by simp [hl])]
    rfl

theorem reach_path (path : List Str) (h : ∀ l ∈ path, PathOk l) (ls : List Str) (s : Data) :
    Reach (blockLines (tx "kpoint_path") (path.map (· ++ ['\n'])) ++ ls) s ls
      { s with path := if path = [] then s.path else some path } := by
  unfold blockLines
  by_cases h0 : path = []
  · subst h0
    exact Reach.refl ls s
  · rw [if_neg (by simpa using h0), if_neg h0, List.cons_append, List.append_assoc (path.map _), List.singleton_append]
    refine Reach.step ?_ (by simp; omega)
    rw [begin_words _ ⟨by decide +kernel, by decide +kernel⟩ (by decide +kernel), readEntry_begin, if_neg (by decide +kernel),
      if_pos rfl, readPath_lines path h]
    rfl

theorem reach_end (name : Str) (h : Solid name) (ls : List Str) (s : Data) :
    Reach ((tx "end " ++ name ++ ['\n']) :: ls) s ls s := by
  refine Reach.skip fun k hk => ?_
  have e : winWords (tx "end " ++ name ++ ['\n']) = tx "end" :: parts name := by
    rw [winWords, end_raw name h]
    have : parts (tx "end") = [tx "end"] := by decide +kernel
    show [tx "end", name].flatMap parts = _
    simp [this]
  rw [e, List.head?_cons, Option.some.injEq] at hk
  subst hk
  decide +kernel

theorem reach_cell (cell : Fin 3 → Fin 3 → ℚ) (ls : List Str) (s : Data) :
    Reach ((tx "begin " ++ tx "unit_cell_cart" ++ ['\n']) :: line (cellFields (cell 0)) :: line (cellFields (cell 1)) ::
      line (cellFields (cell 2)) :: (tx "end " ++ tx "unit_cell_cart" ++ ['\n']) :: ls) s ls
      { s with cell := some fun i => round9 (cell i) } := by
  have h1 : Reach ((tx "begin " ++ tx "unit_cell_cart" ++ ['\n']) :: line (cellFields (cell 0)) :: line (cellFields (cell 1)) ::
      line (cellFields (cell 2)) :: (tx "end " ++ tx "unit_cell_cart" ++ ['\n']) :: ls) s
      ((tx "end " ++ tx "unit_cell_cart" ++ ['\n']) :: ls) { s with cell := some fun i => round9 (cell i) } := by
    refine Reach.step ?_ (by simp)
    have e : ![round9 (cell 0), round9 (cell 1), round9 (cell 2)] = fun i => round9 (cell i) := by
      funext i
      fin_cases i <;> rfl
    rw [begin_words _ ⟨by decide +kernel, by decide +kernel⟩ (by decide +kernel), readEntry_begin, if_neg (by decide +kernel),
      if_neg (by decide +kernel), if_pos rfl]
    simp only [row3_line, Option.bind_eq_bind, Option.bind_some, e]
    rfl
  exact h1.trans (reach_end _ ⟨by decide +kernel, by decide +kernel⟩ _ _)

/-! ### Atoms and points -/

theorem pos_solid (X : Str) (r : Fin 3 → ℚ) (h : Solid X) : ∀ f ∈ posFields X r, Solid f.text := by
  intro f hf
  simp only [posFields, List.mem_cons, List.not_mem_nil, or_false] at hf
  rcases hf with rfl | rfl | rfl | rfl
  · exact h
  all_goals exact showFixed_solid _ _

theorem pos_words (X : Str) (r : Fin 3 → ℚ) (h : Solid X) : words (line (posFields X r)) =
    [X, showFixed 9 (r 0), showFixed 9 (r 1), showFixed 9 (r 2)] := by
  rw [line, words_fmt _ (pos_solid X r h)]
  · rfl
  · intro f hf
    simp only [posFields, List.tail_cons, List.mem_cons, List.not_mem_nil, or_false] at hf
    rcases hf with rfl | rfl | rfl <;> exact Or.inl Nat.one_pos

theorem readTmp_lines (atoms : List (Str × (Fin 3 → ℚ))) (h : ∀ x ∈ atoms, Solid x.1 ∧ x.1 ≠ tx "end") (name : Str)
    (hn : Solid name) (r : List Str) :
    readTmp ((atoms.map fun x => line (posFields x.1 x.2)) ++ (tx "end " ++ name ++ ['\n']) :: r) =
      some (atoms.map fun x => [x.1, showFixed 9 (x.2 0), showFixed 9 (x.2 1), showFixed 9 (x.2 2)], r) := by
  induction atoms with
  | nil =>
    rw [List.map_nil, List.nil_append, readTmp, end_raw name hn]
    simp
  | cons x atoms ih =>
    have hx := h x (by simp)
    rw [List.map_cons, List.cons_append, readTmp, pos_words _ _ hx.1, ih fun x hx => h x (by simp [hx])]
    simp [hx.2]

theorem readAtoms (atoms : List (Str × (Fin 3 → ℚ))) :
    (atoms.map fun x => [x.1, showFixed 9 (x.2 0), showFixed 9 (x.2 1), showFixed 9 (x.2 2)]).mapM readAtom =
      some (atoms.map fun x => (x.1, round9 x.2)) := by
  induction atoms with
  | nil => rfl
  | cons x atoms ih =>
    have e : readAtom [x.1, showFixed 9 (x.2 0), showFixed 9 (x.2 1), showFixed 9 (x.2 2)] = some (x.1, round9 x.2) := by
      simp only [readAtom, fl, List.getElem?_cons_succ, List.getElem?_cons_zero, Option.bind_eq_bind, Option.bind_some,
        readFloat_showFixed 9 (by decide), vec3]
      rfl
    rw [List.map_cons, List.mapM_cons, ih, e]
    rfl

/-- Kinds of coordinates, atoms. -/
structure AtomsOk (coords : Str) (atoms : List (Str × (Fin 3 → ℚ))) : Prop where
  coords : ∀ c ∈ coords, isSpace c = false ∧ c ≠ '='
  atoms : ∀ x ∈ atoms, Solid x.1 ∧ x.1 ≠ tx "end"

theorem AtomsOk.name {coords : Str} {atoms : List (Str × (Fin 3 → ℚ))} (h : AtomsOk coords atoms) :
    Solid (tx "atoms_" ++ coords) ∧ '=' ∉ tx "atoms_" ++ coords := by
  have key : ∀ c ∈ tx "atoms_" ++ coords, isSpace c = false ∧ c ≠ '=' := by
    intro c hc
    rw [List.mem_append] at hc
    rcases hc with hc | hc
    · exact (by decide +kernel : ∀ c ∈ tx "atoms_", isSpace c = false ∧ c ≠ '=') c hc
    · exact h.coords c hc
  exact ⟨⟨by simp, fun c hc => (key c hc).1⟩, fun e => (key _ e).2 rfl⟩

theorem reach_atoms (coords : Str) (atoms : List (Str × (Fin 3 → ℚ))) (h : AtomsOk coords atoms) (ls : List Str) (s : Data) :
    Reach ((tx "begin " ++ (tx "atoms_" ++ coords) ++ ['\n']) :: ((atoms.map fun x => line (posFields x.1 x.2)) ++
      (tx "end " ++ (tx "atoms_" ++ coords) ++ ['\n']) :: ls)) s ls
      { s with atoms := some (coords, atoms.map fun x => (x.1, round9 x.2)) } := by
  refine Reach.step ?_ (by simp; omega)
  have hne : ∀ t : Str, t.head? ≠ some 'a' → tx "atoms_" ++ coords ≠ t := by
    rintro t ht rfl
    exact ht rfl
  have hp : (tx "atoms_").isPrefixOf (tx "atoms_" ++ coords) = true := by simp [List.isPrefixOf_iff_prefix]
  have hd : (tx "atoms_" ++ coords).drop 6 = coords := rfl
  rw [begin_words _ h.name.1 h.name.2, readEntry_begin, if_neg (hne _ (by decide +kernel)), if_neg (hne _ (by decide +kernel)),
    if_neg (hne _ (by decide +kernel)), if_pos hp, readTmp_lines atoms h.atoms _ h.name.1]
  simp only [Option.bind_eq_bind, Option.bind_some, readAtoms, hd]
  rfl

theorem q_solid (k : Fin 4 → ℚ) : ∀ f ∈ qLine k, Solid f.text := by
  intro f hf
  simp only [qLine, List.mem_cons, List.not_mem_nil, or_false] at hf
  rcases hf with rfl | rfl | rfl | rfl <;> exact showFixed_solid _ _

theorem q_words (k : Fin 4 → ℚ) : words (line (qLine k)) =
    [showFixed 9 (k 0), showFixed 9 (k 1), showFixed 9 (k 2), showFixed 9 (k 3)] := by
  rw [line, words_fmt _ (q_solid k)]
  · rfl
  · intro f hf
    simp only [qLine, List.tail_cons, List.mem_cons, List.not_mem_nil, or_false] at hf
    rcases hf with rfl | rfl | rfl <;> exact Or.inl Nat.one_pos

theorem readPoints_lines (l : List (Fin 4 → ℚ)) (r : List Str) :
    readPoints l.length ((l.map fun k => line (qLine k)) ++ r) = some (l.map round9, r) := by
  induction l with
  | nil => rfl
  | cons k l ih =>
    have e : readPoint [showFixed 9 (k 0), showFixed 9 (k 1), showFixed 9 (k 2), showFixed 9 (k 3)] = some (round9 k) := by
      have hm : [showFixed 9 (k 0), showFixed 9 (k 1), showFixed 9 (k 2), showFixed 9 (k 3)].mapM readFloat =
          some [roundTo 9 (k 0), roundTo 9 (k 1), roundTo 9 (k 2), roundTo 9 (k 3)] := by
        simp only [List.mapM_cons, List.mapM_nil, readFloat_showFixed 9 (by decide), Option.bind_eq_bind, Option.bind_some]
        rfl
      rw [readPoint, if_neg (by simp), hm, Option.map_some]
      refine congrArg some ?_
      funext i
      fin_cases i <;> rfl
    simp only [List.length_cons, List.map_cons, List.cons_append]
    rw [readPoints, q_words, e, ih]
    rfl

theorem loop_end (s : Data) (f : Nat) : loop f [] s = some s := by cases f <;> rfl

/-! ### Assembly -/

/-- Lines before the mesh. -/
def headLines (rf : ℚ → Str) (struct : Str → Option Item) (proj : List (Str × Str)) (path : List Str)
    (cell : Fin 3 → Fin 3 → ℚ) (coords : Str) (atoms : List (Str × (Fin 3 → ℚ))) (rest : List Str) : List Str :=
  paramLines rf struct [tx "num_bands", tx "num_wann"] ++ ['\n'] ::
  (paramLines rf struct [tx "dis_win_min", tx "dis_win_max", tx "dis_froz_min", tx "dis_froz_max"] ++ ['\n'] ::
  (blockLines (tx "projections") (proj.map projLine) ++ ['\n'] ::
  (paramLines rf struct [tx "write_hr", tx "bands_plot"] ++ ['\n'] ::
  (paramLines rf struct [tx "dis_num_iter", tx "num_iter", tx "search_shells"] ++ ['\n'] ::
  (blockLines (tx "kpoint_path") (path.map (· ++ ['\n'])) ++ ['\n'] ::
  ((tx "begin " ++ tx "unit_cell_cart" ++ ['\n']) :: line (cellFields (cell 0)) :: line (cellFields (cell 1)) ::
    line (cellFields (cell 2)) :: (tx "end " ++ tx "unit_cell_cart" ++ ['\n']) :: ['\n'] ::
  ((tx "begin " ++ (tx "atoms_" ++ coords) ++ ['\n']) :: ((atoms.map fun x => line (posFields x.1 x.2)) ++
      (tx "end " ++ (tx "atoms_" ++ coords) ++ ['\n']) :: ['\n'] :: rest))))))))

/-- Line with the mesh. -/
def gridLines (sep : Str) : Option (Int × Int × Int) → List Str
  | some (a, b, c) => [tx "mp_grid" ++ sep ++ fmt [fInt 0 0 a, fInt 1 0 b, fInt 1 0 c] ++ ['\n']]
  | none => []

/-- Lines with points. -/
def pointLines (kpoints : List (Fin 4 → ℚ)) : List Str :=
  ['\n'] :: (tx "begin " ++ tx "kpoints" ++ ['\n']) :: ((kpoints.map fun k => line (qLine k)) ++
    [tx "end " ++ tx "kpoints" ++ ['\n']])

theorem write_lines (sep : Str) (rf : ℚ → Str) (struct : Str → Option Item) (proj : List (Str × Str)) (path : List Str)
    (cell : Fin 3 → Fin 3 → ℚ) (coords : Str) (atoms : List (Str × (Fin 3 → ℚ))) (grid : Option (Int × Int × Int))
    (kpoints : List (Fin 4 → ℚ)) : writeWith sep rf struct proj path cell coords atoms grid kpoints =
      (headLines rf struct proj path cell coords atoms (gridLines sep grid ++ pointLines kpoints)).flatten := by
  have e1 : tx "begin unit_cell_cart\n" = tx "begin " ++ tx "unit_cell_cart" ++ ['\n'] := by decide +kernel
  have e2 : tx "end unit_cell_cart\n" = tx "end " ++ tx "unit_cell_cart" ++ ['\n'] := by decide +kernel
  have e3 : tx "begin atoms_" = tx "begin " ++ tx "atoms_" := by decide +kernel
  have e4 : tx "end atoms_" = tx "end " ++ tx "atoms_" := by decide +kernel
  have e5 : tx "begin kpoints\n" = tx "begin " ++ tx "kpoints" ++ ['\n'] := by decide +kernel
  have e6 : tx "end kpoints\n" = tx "end " ++ tx "kpoints" ++ ['\n'] := by decide +kernel
  unfold writeWith headLines pointLines
  rw [e1, e2, e3, e4, e5, e6, paramLines_text, paramLines_text, paramLines_text, paramLines_text, blockLines_text,
    blockLines_text]
  rcases grid with _ | ⟨a, b, c⟩ <;>
  simp only [gridLines, List.flatten_append, List.flatten_cons, List.flatten_nil, List.append_assoc, List.cons_append,
    List.nil_append, List.append_nil, List.flatMap_def]

/-- What can be written and read. -/
structure Ok (rf : ℚ → Str) (struct : Str → Option Item) (proj : List (Str × Str)) (path : List Str) (coords : Str)
    (atoms : List (Str × (Fin 3 → ℚ))) : Prop where
  param : ParamsOk rf struct
  projection : ∀ p ∈ proj, ProjOk p
  distinct : (proj.map Prod.fst).Nodup
  corner : ∀ l ∈ path, PathOk l
  atom : AtomsOk coords atoms

theorem isLine_tx (s : Str) (h : '\n' ∉ s) : IsLine (s ++ ['\n']) := ⟨s, rfl, h⟩

theorem blockLines_line (name : Str) (L : List Str) (hn : '\n' ∉ name) (h : ∀ l ∈ L, IsLine l) :
    ∀ l ∈ blockLines name L, IsLine l := by
  intro l hl
  unfold blockLines at hl
  split at hl
  · simp at hl
  · rw [List.mem_cons, List.mem_append, List.mem_singleton] at hl
    rcases hl with rfl | hl | rfl
    · exact isLine_tx _ (by rw [List.mem_append]; exact fun e => e.elim (by decide +kernel) hn)
    · exact h l hl
    · exact isLine_tx _ (by rw [List.mem_append]; exact fun e => e.elim (by decide +kernel) hn)

theorem cell_isLine (r : Fin 3 → ℚ) : IsLine (line (cellFields r)) :=
  line_isLine _ fun f hf => ((line_cell r).word f hf).solid

theorem head_isLine (rf : ℚ → Str) (struct : Str → Option Item) (proj : List (Str × Str)) (path : List Str)
    (cell : Fin 3 → Fin 3 → ℚ) (coords : Str) (atoms : List (Str × (Fin 3 → ℚ))) (h : Ok rf struct proj path coords atoms)
    (rest : List Str) (hr : ∀ l ∈ rest, IsLine l) : ∀ l ∈ headLines rf struct proj path cell coords atoms rest, IsLine l := by
  have hnl : IsLine ['\n'] := isLine_tx [] (by simp)
  have hp := fun (ks : List Str) (hk : ∀ k ∈ ks, k ∈ written) => paramLines_line rf struct h.param ks hk
  have hname : '\n' ∉ tx "atoms_" ++ coords := h.atom.name.1.newline
  intro l hl
  simp only [headLines, List.mem_append, List.mem_cons] at hl
  rcases hl with hl | rfl | hl | rfl | hl | rfl | hl | rfl | hl | rfl | hl | rfl | rfl | rfl | rfl | rfl | rfl | rfl | rfl | hl | rfl | rfl | hl
  · exact hp _ (by decide +kernel) l hl
  · exact hnl
  · exact hp _ (by decide +kernel) l hl
  · exact hnl
  · refine blockLines_line _ _ (by decide +kernel) (fun l hl => ?_) l hl
    rw [List.mem_map] at hl
    obtain ⟨p, hp, rfl⟩ := hl
    refine isLine_tx _ ?_
    simp only [List.mem_append, List.mem_cons, List.not_mem_nil, or_false]
    rintro ((e | e | e) | e)
    · exact (h.projection p hp).newline.1 e
    · exact absurd e (by decide)
    · exact absurd e (by decide)
    · exact (h.projection p hp).newline.2 e
  · exact hnl
  · exact hp _ (by decide +kernel) l hl
  · exact hnl
  · exact hp _ (by decide +kernel) l hl
  · exact hnl
  · refine blockLines_line _ _ (by decide +kernel) (fun l hl => ?_) l hl
    rw [List.mem_map] at hl
    obtain ⟨p, hp, rfl⟩ := hl
    exact isLine_tx _ (h.corner p hp).newline
  · exact hnl
  · exact isLine_tx _ (by decide +kernel)
  · exact cell_isLine _
  · exact cell_isLine _
  · exact cell_isLine _
  · exact isLine_tx _ (by decide +kernel)
  · exact hnl
  · exact isLine_tx _ (by rw [List.mem_append]; exact fun e => e.elim (by decide +kernel) hname)
  · rw [List.mem_map] at hl
    obtain ⟨x, hx, rfl⟩ := hl
    exact line_isLine _ (pos_solid _ _ (h.atom.atoms x hx).1)
  · exact isLine_tx _ (by rw [List.mem_append]; exact fun e => e.elim (by decide +kernel) hname)
  · exact hnl
  · exact hr l hl

theorem point_isLine (kpoints : List (Fin 4 → ℚ)) : ∀ l ∈ pointLines kpoints, IsLine l := by
  intro l hl
  simp only [pointLines, List.mem_cons, List.mem_append, List.mem_map, List.not_mem_nil, or_false] at hl
  rcases hl with rfl | rfl | ⟨k, _, rfl⟩ | rfl
  · exact isLine_tx [] (by simp)
  · exact isLine_tx _ (by decide +kernel)
  · exact line_isLine _ (q_solid k)
  · exact isLine_tx _ (by decide +kernel)

/-- What is known after the lines before the mesh. -/
def headData (struct : Str → Option Item) (proj : List (Str × Str)) (path : List Str)
    (cell : Fin 3 → Fin 3 → ℚ) (coords : Str) (atoms : List (Str × (Fin 3 → ℚ))) : Data :=
  { params := fun k => if k ∈ written then struct k else none
    proj := if proj = [] then none else some proj
    path := if path = [] then none else some path
    cell := some fun i => round9 (cell i)
    atoms := some (coords, atoms.map fun x => (x.1, round9 x.2)) }

theorem written_cases (k : Str) : k ∈ written ↔ k ∈ [tx "dis_num_iter", tx "num_iter", tx "search_shells"] ∨
    k ∈ [tx "write_hr", tx "bands_plot"] ∨ k ∈ [tx "dis_win_min", tx "dis_win_max", tx "dis_froz_min", tx "dis_froz_max"] ∨
    k ∈ [tx "num_bands", tx "num_wann"] := by
  have e : written.Perm ([tx "dis_num_iter", tx "num_iter", tx "search_shells"] ++ ([tx "write_hr", tx "bands_plot"] ++
      ([tx "dis_win_min", tx "dis_win_max", tx "dis_froz_min", tx "dis_froz_max"] ++ [tx "num_bands", tx "num_wann"]))) := by
    decide +kernel
  rw [e.mem_iff, List.mem_append, List.mem_append, List.mem_append]

theorem reach_head (rf : ℚ → Str) (struct : Str → Option Item) (proj : List (Str × Str)) (path : List Str)
    (cell : Fin 3 → Fin 3 → ℚ) (coords : Str) (atoms : List (Str × (Fin 3 → ℚ))) (h : Ok rf struct proj path coords atoms)
    (rest : List Str) : Reach (headLines rf struct proj path cell coords atoms rest) {} rest
      (headData struct proj path cell coords atoms) := by
  have hp := fun (ks : List Str) (hk : ∀ k ∈ ks, k ∈ written) => reach_params rf struct h.param ks hk
  have key : ∀ D, D = headData struct proj path cell coords atoms → Reach (headLines rf struct proj path cell coords atoms rest) {} rest D →
      Reach (headLines rf struct proj path cell coords atoms rest) {} rest (headData struct proj path cell coords atoms) := by
    rintro D rfl hD
    exact hD
  refine key _ ?_ ((hp [tx "num_bands", tx "num_wann"] (by decide +kernel) _ _).trans ((Reach.blank _ _).trans
    ((hp [tx "dis_win_min", tx "dis_win_max", tx "dis_froz_min", tx "dis_froz_max"] (by decide +kernel) _ _).trans
    ((Reach.blank _ _).trans ((reach_proj proj h.projection h.distinct _ _).trans ((Reach.blank _ _).trans
    ((hp [tx "write_hr", tx "bands_plot"] (by decide +kernel) _ _).trans ((Reach.blank _ _).trans
    ((hp [tx "dis_num_iter", tx "num_iter", tx "search_shells"] (by decide +kernel) _ _).trans ((Reach.blank _ _).trans
    ((reach_path path h.corner _ _).trans ((Reach.blank _ _).trans ((reach_cell cell _ _).trans ((Reach.blank _ _).trans
    ((reach_atoms coords atoms h.atom _ _).trans (Reach.blank _ _))))))))))))))))
  unfold headData
  simp only [Data.mk.injEq, and_true]
  funext k
  have hw : k ∈ written ↔ k ∈ [tx "dis_num_iter", tx "num_iter", tx "search_shells"] ∨ k ∈ [tx "write_hr", tx "bands_plot"] ∨
      k ∈ [tx "dis_win_min", tx "dis_win_max", tx "dis_froz_min", tx "dis_froz_max"] ∨ k ∈ [tx "num_bands", tx "num_wann"] :=
    written_cases k
  simp only [hw]
  split_ifs <;> simp_all
theorem grid_line (a b c : Int) : tx "mp_grid" ++ tx " = " ++ fmt [fInt 0 0 a, fInt 1 0 b, fInt 1 0 c] ++ ['\n'] =
    line [fWord 0 0 (tx "mp_grid"), fWord 1 0 ['='], fInt 1 0 a, fInt 1 0 b, fInt 1 0 c] := by
  have e : tx " = " = ' ' :: '=' :: [' '] := by decide +kernel
  rw [e]
  simp [line, fmt, fWord, fInt, padLeft, padWith]

theorem colon_line (a b c : Int) : tx "mp_grid" ++ tx ": " ++ fmt [fInt 0 0 a, fInt 1 0 b, fInt 1 0 c] ++ ['\n'] =
    line [fWord 0 0 (tx "mp_grid:"), fInt 1 0 a, fInt 1 0 b, fInt 1 0 c] := by
  have e : tx "mp_grid:" = tx "mp_grid" ++ [':'] := by decide +kernel
  have e' : tx ": " = ':' :: [' '] := by decide +kernel
  rw [e, e']
  simp [line, fmt, fWord, fInt, padLeft, padWith]

theorem grid_solid (a b c : Int) : ∀ f ∈ [fWord 0 0 (tx "mp_grid"), fWord 1 0 ['='], fInt 1 0 a, fInt 1 0 b, fInt 1 0 c],
    Solid f.text := by
  intro f hf
  simp only [List.mem_cons, List.not_mem_nil, or_false] at hf
  rcases hf with rfl | rfl | rfl | rfl | rfl
  · exact ⟨by decide +kernel, by decide +kernel⟩
  · exact ⟨by decide +kernel, by decide +kernel⟩
  all_goals exact showInt_solid _

theorem colon_solid (a b c : Int) : ∀ f ∈ [fWord 0 0 (tx "mp_grid:"), fInt 1 0 a, fInt 1 0 b, fInt 1 0 c], Solid f.text := by
  intro f hf
  simp only [List.mem_cons, List.not_mem_nil, or_false] at hf
  rcases hf with rfl | rfl | rfl | rfl
  · exact ⟨by decide +kernel, by decide +kernel⟩
  all_goals exact showInt_solid _

theorem grid_words (a b c : Int) : winWords (line [fWord 0 0 (tx "mp_grid"), fWord 1 0 ['='], fInt 1 0 a, fInt 1 0 b, fInt 1 0 c]) =
    [tx "mp_grid", showInt a, showInt b, showInt c] := by
  rw [winWords_line _ (grid_solid a b c)]
  · have e : parts ['='] = [] := rfl
    have e' : parts (tx "mp_grid") = [tx "mp_grid"] := by decide +kernel
    simp [fWord, fInt, e, e', parts_int]
  · intro f hf
    simp only [List.tail_cons, List.mem_cons, List.not_mem_nil, or_false] at hf
    rcases hf with rfl | rfl | rfl | rfl <;> exact Or.inl Nat.one_pos

theorem colon_words (a b c : Int) : winWords (line [fWord 0 0 (tx "mp_grid:"), fInt 1 0 a, fInt 1 0 b, fInt 1 0 c]) =
    [tx "mp_grid:", showInt a, showInt b, showInt c] := by
  rw [winWords_line _ (colon_solid a b c)]
  · have e' : parts (tx "mp_grid:") = [tx "mp_grid:"] := by decide +kernel
    simp [fWord, fInt, e', parts_int]
  · intro f hf
    simp only [List.tail_cons, List.mem_cons, List.not_mem_nil, or_false] at hf
    rcases hf with rfl | rfl | rfl <;> exact Or.inl Nat.one_pos

theorem reach_grid (a b c : Int) (ls : List Str) (s : Data) :
    Reach (gridLines (tx " = ") (some (a, b, c)) ++ ls) s ls { s with grid := some (a, b, c) } := by
  refine Reach.step ?_ le_rfl
  have hkey : (tx "mp_grid").map Char.toLower = tx "mp_grid" := by decide +kernel
  have h1 : tx "mp_grid" ∉ intKeys := by decide +kernel
  have h2 : tx "mp_grid" ∉ floatKeys := by decide +kernel
  have h3 : tx "mp_grid" ∉ boolKeys := by decide +kernel
  rw [grid_line, grid_words]
  unfold readEntry
  simp only [hkey, if_neg h1, if_neg h2, if_neg h3, if_true, List.getElem?_cons_succ, List.getElem?_cons_zero,
    Option.bind_eq_bind, Option.bind_some, readInt_showInt]
  rfl

theorem reach_colon (grid : Option (Int × Int × Int)) (ls : List Str) (s : Data) :
    Reach (gridLines (tx ": ") grid ++ ls) s ls s := by
  rcases grid with _ | ⟨a, b, c⟩
  · exact Reach.refl ls s
  · refine Reach.skip fun k hk => ?_
    rw [colon_line, colon_words, List.head?_cons, Option.some.injEq] at hk
    subst hk
    decide +kernel

theorem reach_points (a b c : Int) (kpoints : List (Fin 4 → ℚ)) (h : a * b * c = kpoints.length) (s : Data)
    (hs : s.grid = some (a, b, c)) : Reach (pointLines kpoints) s [] { s with kpoints := some (kpoints.map round9) } := by
  refine (Reach.blank _ _).trans ?_
  have h1 : Reach ((tx "begin " ++ tx "kpoints" ++ ['\n']) :: ((kpoints.map fun k => line (qLine k)) ++
      [tx "end " ++ tx "kpoints" ++ ['\n']])) s [tx "end " ++ tx "kpoints" ++ ['\n']]
      { s with kpoints := some (kpoints.map round9) } := by
    refine Reach.step ?_ (by simp)
    rw [begin_words _ ⟨by decide +kernel, by decide +kernel⟩ (by decide +kernel), readEntry_begin, if_neg (by decide +kernel),
      if_neg (by decide +kernel), if_neg (by decide +kernel), if_neg (by decide +kernel), if_pos rfl, hs]
    simp only [Option.bind_eq_bind, Option.bind_some, h, Int.toNat_natCast, readPoints_lines]
    rw [if_neg (by omega)]
    rfl
  exact h1.trans (reach_end _ ⟨by decide +kernel, by decide +kernel⟩ _ _)

theorem grid_isLine (sep : Str) (hs : '\n' ∉ sep) (grid : Option (Int × Int × Int)) : ∀ l ∈ gridLines sep grid, IsLine l := by
  rcases grid with _ | ⟨a, b, c⟩
  · simp [gridLines]
  · intro l hl
    rw [gridLines, List.mem_singleton] at hl
    subst hl
    refine isLine_tx _ ?_
    rw [List.mem_append, List.mem_append]
    rintro ((e | e) | e)
    · exact absurd e (by decide +kernel)
    · exact hs e
    · refine fmt_newline _ (fun f hf => ?_) e
      simp only [List.mem_cons, List.not_mem_nil, or_false] at hf
      rcases hf with rfl | rfl | rfl <;> exact showInt_solid _

/-! ### Claims -/

/-- **C123** (partial): If the colon after `mp_grid` were an equality sign, an input file of Wannier90 could be read again: One
would obtain the integers, numbers and logical values that have been written (but not `wannier_plot`), the projections and lines of
the path (nothing if there are none), and the cell, atoms and k points (as many as in the mesh) rounded to nine decimals. Missing:
The file the code really writes cannot be read (`C123_grid_violated`). -/
theorem C123_partial (rf : ℚ → Str) (struct : Str → Option Item) (proj : List (Str × Str)) (path : List Str)
    (cell : Fin 3 → Fin 3 → ℚ) (coords : Str) (atoms : List (Str × (Fin 3 → ℚ))) (a b c : Int) (kpoints : List (Fin 4 → ℚ))
    (h : Ok rf struct proj path coords atoms) (hk : a * b * c = kpoints.length) :
    readWin (writeWith (tx " = ") rf struct proj path cell coords atoms (some (a, b, c)) kpoints) = some
      { params := fun k => if k ∈ written then struct k else none
        proj := if proj = [] then none else some proj
        path := if path = [] then none else some path
        cell := some fun i => round9 (cell i)
        atoms := some (coords, atoms.map fun x => (x.1, round9 x.2))
        grid := some (a, b, c)
        kpoints := some (kpoints.map round9) } := by
  have hrest : ∀ l ∈ gridLines (tx " = ") (some (a, b, c)) ++ pointLines kpoints, IsLine l := by
    intro l hl
    rw [List.mem_append] at hl
    exact hl.elim (grid_isLine _ (by decide +kernel) _ l) (point_isLine kpoints l)
  have hr := ((reach_head rf struct proj path cell coords atoms h _).trans
    (reach_grid a b c (pointLines kpoints) _)).trans (reach_points a b c kpoints hk _ rfl)
  unfold readWin
  rw [write_lines, lines_flatten _ (head_isLine rf struct proj path cell coords atoms h _ hrest)]
  obtain ⟨f', _, e⟩ := hr _ le_rfl
  rw [e, loop_end]
  rfl

/-- **C123** fails: No input file of Wannier90 written by the code can be read by it, whatever is written (as long as the
remaining parts could be read): The mesh is written with a colon, which the reader does not know, so that the number of k points is
missing. -/
theorem C123_grid_violated (rf : ℚ → Str) (struct : Str → Option Item) (proj : List (Str × Str)) (path : List Str)
    (cell : Fin 3 → Fin 3 → ℚ) (coords : Str) (atoms : List (Str × (Fin 3 → ℚ))) (grid : Option (Int × Int × Int))
    (kpoints : List (Fin 4 → ℚ)) (h : Ok rf struct proj path coords atoms) :
    readWin (writeWin rf struct proj path cell coords atoms grid kpoints) = none := by
  have hrest : ∀ l ∈ gridLines (tx ": ") grid ++ pointLines kpoints, IsLine l := by
    intro l hl
    rw [List.mem_append] at hl
    exact hl.elim (grid_isLine _ (by decide +kernel) _ l) (point_isLine kpoints l)
  have hr := ((reach_head rf struct proj path cell coords atoms h _).trans
    (reach_colon grid (pointLines kpoints) _)).trans (Reach.blank _ _)
  unfold readWin writeWin
  rw [write_lines, lines_flatten _ (head_isLine rf struct proj path cell coords atoms h _ hrest)]
  obtain ⟨f', hf, e⟩ := hr _ le_rfl
  rw [e]
  rw [List.length_cons] at hf
  obtain ⟨f', rfl⟩ : ∃ g, f' = g + 1 := ⟨f' - 1, by omega⟩
  rw [loop, begin_words _ ⟨by decide +kernel, by decide +kernel⟩ (by decide +kernel), readEntry_begin, if_neg (by decide +kernel),
    if_neg (by decide +kernel), if_neg (by decide +kernel), if_neg (by decide +kernel), if_pos rfl]
  rfl

/-! ### Example -/

theorem trim_of (v : Str) (h : (∀ c ∈ v.head?.toList, isSpace c = false) ∧ ∀ c ∈ v.getLast?.toList, isSpace c = false) : Trim v :=
  ⟨fun c hc => h.1 c (by simp [hc]), fun c hc => h.2 c (by simp [hc])⟩

/-- Parameters for graphene. -/
def graphene : Str → Option Item := fun key =>
  if key = tx "num_wann" then some (.int 2)
  else if key = tx "dis_froz_max" then some (.float (1 / 2))
  else if key = tx "write_hr" then some (.bool true)
  else none

theorem half : FloatRepr (tx "0.5") (1 / 2) where
  chars := by decide +kernel
  ne := by decide +kernel
  notInt := by decide +kernel
  value := by decide +kernel

theorem graphene_ok : Ok (fun _ => tx "0.5") graphene [(tx "C", tx "pz")] [tx "G 0 0 0 M 0.5 0 0"] (tx "frac")
    [(tx "C", fun _ => 0), (tx "C", fun _ => 1 / 3)] where
  param :=
    { int := fun k hk i hi => by
        simp only [List.map_cons, List.map_nil, List.mem_cons, List.not_mem_nil, or_false] at hk
        rcases hk with rfl | rfl | rfl | rfl | rfl
        · exact absurd hi (by rw [show graphene (tx "num_bands") = none from rfl]; simp)
        · exact ⟨2, (Option.some.inj hi).symm⟩
        all_goals exact nomatch hi
      float := fun k hk i hi => by
        simp only [List.map_cons, List.map_nil, List.mem_cons, List.not_mem_nil, or_false] at hk
        rcases hk with rfl | rfl | rfl | rfl
        · exact nomatch hi
        · exact nomatch hi
        · exact nomatch hi
        · exact ⟨1 / 2, (Option.some.inj hi).symm, half⟩
      bool := fun k hk i hi => by
        simp only [List.map_cons, List.map_nil, List.mem_cons, List.not_mem_nil, or_false] at hk
        rcases hk with rfl | rfl
        · exact ⟨true, (Option.some.inj hi).symm⟩
        · exact nomatch hi }
  projection := fun p hp => by
    rw [List.mem_singleton] at hp
    subst hp
    exact ⟨⟨trim_of _ (by decide +kernel), trim_of _ (by decide +kernel)⟩, by decide +kernel, ⟨by decide +kernel, by decide +kernel⟩, by decide +kernel⟩
  distinct := by simp
  corner := fun l hl => by
    rw [List.mem_singleton] at hl
    subst hl
    exact ⟨trim_of _ (by decide +kernel), by decide +kernel, by decide +kernel⟩
  atom := ⟨by decide +kernel, fun x hx => by
    simp only [List.mem_cons, List.not_mem_nil, or_false] at hx
    rcases hx with rfl | rfl <;> exact ⟨⟨by decide +kernel, by decide +kernel⟩, by decide +kernel⟩⟩

/-- The hypotheses of C123 can be met: graphene with a single k point. -/
example : readWin (writeWin (fun _ => tx "0.5") graphene [(tx "C", tx "pz")] [tx "G 0 0 0 M 0.5 0 0"] (fun _ _ => 1) (tx "frac")
    [(tx "C", fun _ => 0), (tx "C", fun _ => 1 / 3)] (some (1, 1, 1)) [fun _ => 1]) = none ∧
    (readWin (writeWith (tx " = ") (fun _ => tx "0.5") graphene [(tx "C", tx "pz")] [tx "G 0 0 0 M 0.5 0 0"] (fun _ _ => 1)
    (tx "frac") [(tx "C", fun _ => 0), (tx "C", fun _ => 1 / 3)] (some (1, 1, 1)) [fun _ => 1])).map (·.proj) =
      some (some [(tx "C", tx "pz")]) :=
  ⟨C123_grid_violated _ _ _ _ _ _ _ _ _ graphene_ok, by
    rw [C123_partial _ _ _ _ _ _ _ _ _ _ _ graphene_ok (by simp)]
    rfl⟩

end Verif.Win
