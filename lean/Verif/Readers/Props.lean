import Verif.Readers.Model
import Verif.AtomicProj.Props

/-!
# Small readers (C140, C141)
-/

namespace Verif.Readers

open Verif.Text Verif.Xml Verif.Pwo Verif.AtomicProj

/-! ### `read_bands_plot` -/

theorem mapM_forall₂ {α β : Type} (f : α → Option β) {l : List α} {m : List β} (h : List.Forall₂ (fun a b => f a = some b) l m) :
    l.mapM f = some m := by
  induction h with
  | nil => rfl
  | cons h _ ih => simp [List.mapM_cons, h, ih]

/-- Numbers in blocks of the same size. -/
def blocks {α : Type} (B P : Nat) (f : Nat → Nat → α) : List α := (List.range B).flatMap fun n => (List.range P).map (f n)

theorem blocks_length {α : Type} (B P : Nat) (f : Nat → Nat → α) : (blocks B P f).length = B * P := by
  simp [blocks, List.length_flatMap]

theorem blocks_succ {α : Type} (B P : Nat) (f : Nat → Nat → α) : blocks (B + 1) P f = blocks B P f ++ (List.range P).map (f B) := by
  simp [blocks, List.range_succ]

theorem blocks_getElem {α : Type} (B P : Nat) (f : Nat → Nat → α) (n i : Nat) (hn : n < B) (hi : i < P) :
    (blocks B P f)[n * P + i]? = some (f n i) := by
  induction B with
  | zero => omega
  | succ B ih =>
    rw [blocks_succ]
    rcases Nat.lt_succ_iff_lt_or_eq.1 hn with h | rfl
    · rw [List.getElem?_append_left, ih h]
      rw [blocks_length]
      calc n * P + i < n * P + P := by omega
        _ = (n + 1) * P := by ring
        _ ≤ B * P := Nat.mul_le_mul_right P h
    · rw [List.getElem?_append_right (by rw [blocks_length]; omega), blocks_length, Nat.add_sub_cancel_left]
      simp [hi]

theorem blocks_map {α β : Type} (B P : Nat) (f : Nat → Nat → α) (g : α → β) : (blocks B P f).map g = blocks B P fun n i => g (f n i) := by
  simp [blocks, List.map_flatMap, Function.comp_def]

/-- Lines of the file *filband.gnu* (apart from blank ones): distance and energy for all points for the first band, for the second one, etc. -/
def PlotText (ls : List Str) (rows : List (ℚ × ℚ)) : Prop :=
  List.Forall₂ (fun l (r : ℚ × ℚ) => (words l).mapM readFloat = some [r.1, r.2]) (ls.filter fun l => !(words l).isEmpty) rows

theorem loadtxt_eq (ls : List Str) (rows : List (ℚ × ℚ)) (h : PlotText ls rows) : loadtxt ls = some rows := by
  refine mapM_forall₂ _ (h.imp fun l r h => ?_)
  rw [h]

/-- C140: plotted bands are assigned to the right points and bands. -/
theorem C140_bands (ls : List Str) (bands points : Nat) (k : Nat → ℚ) (E : Nat → Nat → ℚ) (h2 : 2 ≤ bands * points)
    (h : PlotText ls (blocks bands points fun n i => (k i, E n i))) :
    readBandsPlot ls bands = some ((List.range points).map k, (List.range points).map fun i => (List.range bands).map fun n => E n i) := by
  have hb : 0 < bands := Nat.pos_of_ne_zero fun e => by simp [e] at h2
  have hd : bands * points / bands = points := Nat.mul_div_cancel_left _ hb
  unfold readBandsPlot
  rw [loadtxt_eq _ _ h]
  simp only [Option.bind_eq_bind, Option.bind_some, blocks_length]
  rw [if_neg (by omega), if_neg (by omega), hd, if_neg (by simp)]
  simp only [pure, Option.bind_some, Option.some.injEq, Prod.mk.injEq]
  refine ⟨?_, ?_⟩
  · rw [blocks_map]
    obtain ⟨B, rfl⟩ : ∃ B, bands = B + 1 := ⟨bands - 1, by omega⟩
    rw [show blocks (B + 1) points (fun _ i => k i) = (List.range points).map k ++ blocks B points (fun _ i => k i) by
      simp [blocks, List.range_succ_eq_map, List.flatMap_map]]
    rw [List.take_append_of_le_length (by simp), List.take_of_length_le (by simp)]
  · apply List.map_congr_left
    intro i hi
    apply List.map_congr_left
    intro n hn
    rw [blocks_map, List.getD_eq_getElem?_getD, blocks_getElem _ _ _ _ _ (List.mem_range.1 hn) (List.mem_range.1 hi)]
    rfl

example : PlotText [" 0.0 -1.0\n".toList, " 0.5 -2.0\n".toList, "\n".toList, " 0.0 1.0\n".toList, " 0.5 2.0\n".toList]
    (blocks 2 2 fun n i => ((i : ℚ) / 2, if n = 0 then -1 - i else 1 + i)) :=
  .cons (by decide +kernel) (.cons (by decide +kernel) (.cons (by decide +kernel) (.cons (by decide +kernel) .nil)))

/-- C140 is violated for a single band at a single point, which cannot be read. -/
theorem C140_bands_violated (ls : List Str) (bands : Nat) (k e : ℚ) (h : PlotText ls (blocks 1 1 fun _ _ => (k, e))) :
    readBandsPlot ls bands = none := by
  unfold readBandsPlot
  rw [loadtxt_eq _ _ h]
  simp [blocks_length]

example : PlotText [" 0.5 -1.0\n".toList] (blocks 1 1 fun _ _ => (1 / 2, -1)) := .cons (by decide +kernel) .nil

/-! ### `read_symmetry_points` -/

/-- C140: positions of symmetry points are the last numbers in all lines with "x coordinate". -/
theorem C140_points (ls : List Str) (xs : List ℚ)
    (h : List.Forall₂ (fun l x => ∃ w, (words l).getLast? = some w ∧ readFloat w = some x)
      (ls.filter fun l => decide ("x coordinate".toList <:+: l)) xs) : readSymmetryPoints ls = some xs := by
  induction ls generalizing xs with
  | nil =>
    cases h
    rfl
  | cons l ls ih =>
    by_cases hl : "x coordinate".toList <:+: l
    · rw [List.filter_cons_of_pos (p := fun l => decide ("x coordinate".toList <:+: l)) (a := l) (decide_eq_true hl)] at h
      cases h with
      | cons h h' =>
        obtain ⟨w, h1, h2⟩ := h
        rw [readSymmetryPoints, if_pos ((has_iff _ _).2 hl), h1]
        simp [h2, ih _ h']
    · rw [List.filter_cons_of_neg (p := fun l => decide ("x coordinate".toList <:+: l)) (a := l) (by rw [decide_eq_true_eq]; exact hl)] at h
      rw [readSymmetryPoints, has_false _ _ hl, if_neg (by simp), ih _ h]

example : List.Forall₂ (fun l x => ∃ w, (words l).getLast? = some w ∧ readFloat w = some x)
    (["Program BANDS".toList, " high-symmetry point:  0.5 0.0 0.0   x coordinate   0.25".toList].filter fun l =>
      decide ("x coordinate".toList <:+: l)) [1 / 4] := by
  rw [show (["Program BANDS".toList, " high-symmetry point:  0.5 0.0 0.0   x coordinate   0.25".toList].filter fun l =>
      decide ("x coordinate".toList <:+: l)) = [" high-symmetry point:  0.5 0.0 0.0   x coordinate   0.25".toList] by decide +kernel]
  exact .cons ⟨"0.25".toList, by decide +kernel, by decide +kernel⟩ .nil

/-! ### `read_wannier90_eig_file` -/

theorem readEig_eq (bands nk : Nat) (ls : List Str) (data : List (Nat × Nat × ℚ)) (t0 : Nat → Nat → Option ℚ)
    (h : List.Forall₂ (fun l (d : Nat × Nat × ℚ) => ∃ w, words l = [showInt (d.1 + 1 : Nat), showInt (d.2.1 + 1 : Nat), w] ∧
      readFloat w = some d.2.2) ls data) (hr : ∀ d ∈ data, d.1 < bands ∧ d.2.1 < nk) (hn : (data.map fun d => (d.1, d.2.1)).Nodup) :
    ∃ t, readEig bands nk ls t0 = some t ∧ (∀ d ∈ data, t d.1 d.2.1 = some d.2.2) ∧
      ∀ b k, (b, k) ∉ data.map (fun d => (d.1, d.2.1)) → t b k = t0 b k := by
  induction h generalizing t0 with
  | nil => exact ⟨t0, rfl, by simp, fun _ _ _ => rfl⟩
  | @cons l d ls data h _ ih =>
    obtain ⟨w, h1, h2⟩ := h
    obtain ⟨hb, hk⟩ := hr d (by simp)
    rw [List.map_cons, List.nodup_cons] at hn
    obtain ⟨t, ht, ht1, ht2⟩ := ih (fun i' j' => if i' = d.1 ∧ j' = d.2.1 then some d.2.2 else t0 i' j')
      (fun x hx => hr x (by simp [hx])) hn.2
    refine ⟨t, ?_, ?_, ?_⟩
    · have e : eigLine l = some (((d.1 + 1 : Nat) : Int), ((d.2.1 + 1 : Nat) : Int), d.2.2) := by
        rw [eigLine, h1]
        simp only [readInt_showInt, h2, Option.bind_eq_bind, Option.bind_some]
      have p1 : pyIndex bands (((d.1 + 1 : Nat) : Int) - 1) = some d.1 := by
        unfold pyIndex
        rw [if_pos (by omega)]
        congr 1
        omega
      have p2 : pyIndex nk (((d.2.1 + 1 : Nat) : Int) - 1) = some d.2.1 := by
        unfold pyIndex
        rw [if_pos (by omega)]
        congr 1
        omega
      rw [readEig, e]
      simp only [Option.bind_eq_bind, Option.bind_some]
      rw [p1, p2]
      exact ht
    · intro x hx
      rcases List.mem_cons.1 hx with rfl | hx
      · rw [ht2 _ _ hn.1]
        simp
      · exact ht1 x hx
    · intro b k hbk
      rw [List.map_cons, List.mem_cons, not_or] at hbk
      rw [ht2 b k hbk.2, if_neg]
      rintro ⟨rfl, rfl⟩
      exact hbk.1 rfl

/-- C140: energies in *seedname.eig* are assigned to the right bands and k points, whatever the order of lines; no other elements are set. -/
theorem C140_eig (bands nk : Nat) (ls : List Str) (data : List (Nat × Nat × ℚ))
    (h : List.Forall₂ (fun l (d : Nat × Nat × ℚ) => ∃ w, words l = [showInt (d.1 + 1 : Nat), showInt (d.2.1 + 1 : Nat), w] ∧
      readFloat w = some d.2.2) ls data) (hr : ∀ d ∈ data, d.1 < bands ∧ d.2.1 < nk) (hn : (data.map fun d => (d.1, d.2.1)).Nodup) :
    ∃ t, readEig bands nk ls (fun _ _ => none) = some t ∧ ∀ b k e, t b k = some e ↔ (b, k, e) ∈ data := by
  obtain ⟨t, h1, h2, h3⟩ := readEig_eq bands nk ls data (fun _ _ => none) h hr hn
  refine ⟨t, h1, fun b k e => ⟨fun hte => ?_, fun hm => h2 (b, k, e) hm⟩⟩
  by_cases hm : (b, k) ∈ data.map fun d => (d.1, d.2.1)
  · obtain ⟨⟨b', k', e'⟩, hd, hbk⟩ := List.mem_map.1 hm
    simp only [Prod.mk.injEq] at hbk
    obtain ⟨rfl, rfl⟩ := hbk
    have := h2 _ hd
    rw [hte, Option.some.injEq] at this
    rw [this]
    exact hd
  · rw [h3 b k hm] at hte
    cases hte

example : List.Forall₂ (fun l (d : Nat × Nat × ℚ) => ∃ w, words l = [showInt (d.1 + 1 : Nat), showInt (d.2.1 + 1 : Nat), w] ∧
    readFloat w = some d.2.2) ["  2  1  -0.5".toList, "  1  1  1.5".toList] [(1, 0, -1 / 2), (0, 0, 3 / 2)] :=
  .cons ⟨"-0.5".toList, by decide +kernel, by decide +kernel⟩ (.cons ⟨"1.5".toList, by decide +kernel, by decide +kernel⟩ .nil)

/-! ### `read_decayH` -/

/-- C140: distances and matrix elements are those in lines with two columns; all other lines are ignored. -/
theorem C140_decay (ls : List Str) (data : List (ℚ × ℚ))
    (h : List.Forall₂ (fun l (d : ℚ × ℚ) => (words l).mapM readFloat = some [d.1, d.2]) (ls.filter fun l => decide ((words l).length = 2)) data) :
    readDecayH ls = some data := by
  induction ls generalizing data with
  | nil =>
    cases h
    rfl
  | cons l ls ih =>
    by_cases hl : (words l).length = 2
    · rw [List.filter_cons_of_pos (by simpa using hl)] at h
      cases h with
      | @cons _ d _ data h h' =>
        obtain ⟨u, v, huv⟩ := List.length_eq_two.1 hl
        rw [huv] at h
        have hu : readFloat u = some d.1 ∧ readFloat v = some d.2 := by
          cases hu : readFloat u with
          | none => simp [hu] at h
          | some x =>
            cases hv : readFloat v with
            | none => simp [hu, hv] at h
            | some y => simpa [hu, hv] using h
        rw [readDecayH, huv]
        simp [hu.1, hu.2, ih _ h']
    · rw [List.filter_cons_of_neg (by simpa using hl)] at h
      rw [readDecayH]
      split
      · next r h' e => exact absurd (by rw [e]; rfl) hl
      · exact ih _ h

example : List.Forall₂ (fun l (d : ℚ × ℚ) => (words l).mapM readFloat = some [d.1, d.2])
    (["  # R_e [Ang]       max H(R) [Ry]".toList, "  1.5  0.25".toList].filter fun l => decide ((words l).length = 2)) [(3 / 2, 1 / 4)] := by
  rw [show (["  # R_e [Ang]       max H(R) [Ry]".toList, "  1.5  0.25".toList].filter fun l => decide ((words l).length = 2)) =
    ["  1.5  0.25".toList] by decide +kernel]
  exact .cons (by decide +kernel) .nil

/-! ### `read_energy_contributions_scf_out` -/

/-- First word in a line, key in the dictionary and number of the word with the value. -/
def table : List (String × String × Nat) := [("sum", "sum bands", 2), ("one-electron", "one-electron", 2), ("hartree", "hartree", 2), ("xc", "xc", 2),
  ("ewald", "ewald", 2), ("smearing", "smearing", 3), ("!", "total", 3)]

theorem energyLine_in (t : String × String × Nat) (ht : t ∈ table) (l : Str) (ws : List Str) (h : wordsEq l = t.1.toList :: ws)
    (d : Str → Option Str) : energyLine l d = put t.2.1 (t.1.toList :: ws) t.2.2 d := by
  unfold energyLine
  rw [h]
  simp only [table, List.mem_cons, List.not_mem_nil, or_false] at ht
  rcases ht with rfl | rfl | rfl | rfl | rfl | rfl | rfl
  · simp only
    rw [if_pos (by decide +kernel), if_pos trivial]
  · simp only
    rw [if_neg (by decide +kernel), if_pos (by decide +kernel), if_pos trivial]
  · simp only
    rw [if_neg (by decide +kernel), if_neg (by decide +kernel), if_pos (by decide +kernel), if_pos trivial]
  · simp only
    rw [if_neg (by decide +kernel), if_neg (by decide +kernel), if_neg (by decide +kernel), if_pos (by decide +kernel), if_pos trivial]
  · simp only
    rw [if_neg (by decide +kernel), if_neg (by decide +kernel), if_neg (by decide +kernel), if_neg (by decide +kernel),
      if_pos (by decide +kernel), if_pos trivial]
  · simp only
    rw [if_neg (by decide +kernel), if_neg (by decide +kernel), if_neg (by decide +kernel), if_neg (by decide +kernel),
      if_neg (by decide +kernel), if_pos (by decide +kernel), if_pos trivial]
  · simp only
    rw [if_neg (by decide +kernel), if_neg (by decide +kernel), if_neg (by decide +kernel), if_neg (by decide +kernel),
      if_neg (by decide +kernel), if_neg (by decide +kernel), if_pos (by decide +kernel), if_pos trivial]

theorem energyLine_out (l : Str) (h : ∀ t ∈ table, ∀ ws, wordsEq l ≠ t.1.toList :: ws) (d : Str → Option Str) : energyLine l d = some d := by
  unfold energyLine
  cases hw : wordsEq l with
  | nil => rfl
  | cons w ws =>
    have key : ∀ t ∈ table, w ≠ t.1.toList := fun t ht e => h t ht ws (by rw [hw, e])
    have k1 := key ("sum", "sum bands", 2) (by decide +kernel)
    have k2 := key ("one-electron", "one-electron", 2) (by decide +kernel)
    have k3 := key ("hartree", "hartree", 2) (by decide +kernel)
    have k4 := key ("xc", "xc", 2) (by decide +kernel)
    have k5 := key ("ewald", "ewald", 2) (by decide +kernel)
    have k6 := key ("smearing", "smearing", 3) (by decide +kernel)
    have k7 := key ("!", "total", 3) (by decide +kernel)
    simp only at k1 k2 k3 k4 k5 k6 k7
    simp only [k1, k2, k3, k4, k5, k6, k7, if_false, ite_self]

/-- The last line (split into words) that begins with the given word. -/
def lastLine (first : String) (ls : List Str) : Option (List Str) := ((ls.map wordsEq).filter fun ws => ws.head? == some first.toList).getLast?

theorem lastLine_cons (first : String) (l : Str) (ls : List Str) : lastLine first (l :: ls) =
    match lastLine first ls with
    | some ws => some ws
    | none => if (wordsEq l).head? == some first.toList then some (wordsEq l) else none := by
  unfold lastLine
  rw [List.map_cons, List.filter_cons]
  by_cases h : (wordsEq l).head? == some first.toList
  · rw [if_pos h, if_pos h, List.getLast?_cons]
    cases ((ls.map wordsEq).filter fun ws => ws.head? == some first.toList).getLast? <;> rfl
  · rw [if_neg h, if_neg h]
    cases ((ls.map wordsEq).filter fun ws => ws.head? == some first.toList).getLast? <;> rfl

theorem table_key : ∀ t ∈ table, ∀ t' ∈ table, (t.1.toList = t'.1.toList ∨ t.2.1.toList = t'.2.1.toList) → t = t' := by
  decide +kernel

theorem energies_eq (ls : List Str) (d0 : Str → Option Str)
    (h : ∀ t ∈ table, ∀ l ∈ ls, ∀ ws, wordsEq l = t.1.toList :: ws → t.2.2 < ws.length + 1) :
    ∃ d, ls.foldlM (fun d l => energyLine l d) d0 = some d ∧
      (∀ t ∈ table, d t.2.1.toList = match lastLine t.1 ls with
        | some ws => ws[t.2.2]?
        | none => d0 t.2.1.toList) ∧
      ∀ k, (∀ t ∈ table, k ≠ t.2.1.toList) → d k = d0 k := by
  induction ls generalizing d0 with
  | nil => exact ⟨d0, rfl, fun _ _ => rfl, fun _ _ => rfl⟩
  | cons l ls ih =>
    by_cases hl : ∃ t ∈ table, ∃ ws, wordsEq l = t.1.toList :: ws
    · obtain ⟨t, ht, ws, hw⟩ := hl
      have hlt := h t ht l (by simp) ws hw
      obtain ⟨v, hv⟩ : ∃ v, (t.1.toList :: ws)[t.2.2]? = some v := ⟨_, List.getElem?_eq_getElem (by simpa using hlt)⟩
      obtain ⟨d, hd, h1, h2⟩ := ih (fun k => if k = t.2.1.toList then some v else d0 k) fun t ht l hl => h t ht l (by simp [hl])
      refine ⟨d, ?_, ?_, ?_⟩
      · rw [List.foldlM_cons, energyLine_in t ht l ws hw, put, hv]
        exact hd
      · intro t' ht'
        rw [h1 t' ht', lastLine_cons, hw]
        cases hc : lastLine t'.1 ls with
        | some ws' => rfl
        | none =>
          simp only [List.head?_cons]
          by_cases e : t = t'
          · subst e
            simp [hv]
          · have hne : (some t.1.toList == some t'.1.toList) = false := by
              rw [beq_eq_false_iff_ne]
              exact fun e' => e (table_key t ht t' ht' (Or.inl (Option.some.inj e')))
            have hk : t'.2.1.toList ≠ t.2.1.toList := fun e' => e (table_key t ht t' ht' (Or.inr e'.symm))
            simp only [hne, if_neg hk, Bool.false_eq_true, if_false]
      · intro k hk
        rw [h2 k hk, if_neg (hk t ht)]
    · have hl' : ∀ t ∈ table, ∀ ws, wordsEq l ≠ t.1.toList :: ws := fun t ht ws e => hl ⟨t, ht, ws, e⟩
      obtain ⟨d, hd, h1, h2⟩ := ih d0 fun t ht l hl => h t ht l (by simp [hl])
      refine ⟨d, ?_, ?_, h2⟩
      · rw [List.foldlM_cons, energyLine_out l hl']
        exact hd
      · intro t ht
        rw [h1 t ht, lastLine_cons]
        cases hc : lastLine t.1 ls with
        | some ws' => rfl
        | none =>
          have : ((wordsEq l).head? == some t.1.toList) = false := by
            cases hw : wordsEq l with
            | nil => rfl
            | cons w ws =>
              have := hl' t ht ws
              rw [hw] at this
              simpa using this
          simp [this]

/-- C140: each energy contribution is taken from the last line beginning with the respective word, whatever the other lines; there are no further
keys. -/
theorem C140_energies (ls : List Str) (h : ∀ t ∈ table, ∀ l ∈ ls, ∀ ws, wordsEq l = t.1.toList :: ws → t.2.2 < ws.length + 1) :
    ∃ d, readEnergies ls = some d ∧ (∀ t ∈ table, d t.2.1.toList = lastLine t.1 ls >>= fun ws => ws[t.2.2]?) ∧
      ∀ k, (∀ t ∈ table, k ≠ t.2.1.toList) → d k = none := by
  obtain ⟨d, h1, h2, h3⟩ := energies_eq ls (fun _ => none) h
  refine ⟨d, h1, fun t ht => ?_, h3⟩
  rw [h2 t ht]
  cases lastLine t.1 ls <;> rfl

example : (lastLine "!" ["!    total energy              =     -63.5 Ry".toList, "     xc contribution           =      -9.5 Ry".toList] >>=
    fun ws => ws[3]?) = some "-63.5".toList := by decide +kernel

/-! ### `read_patterns` -/

/-- A file with displacement patterns: a section with their number and sections with the patterns, where lines with numbers contain no tags. -/
structure PatternFile where
  number : Section
  patterns : List Section
  rest : List Str

/-- All lines of the file. -/
def PatternFile.lines (f : PatternFile) : List Str := f.number.lines ++ (f.patterns.flatMap Section.lines ++ f.rest)

/-- The file contains the given (complex) patterns. -/
def PatternFile.Describes (f : PatternFile) (N : Nat) (u : List (List (ℚ × ℚ))) : Prop :=
  f.number.At "<NUMBER_IRR_REP " ∧ (∃ l, f.number.2.2 = [l] ∧ words l = [showInt N]) ∧ u.length = N ∧ (∀ c ∈ u, c.length = N) ∧
  List.Forall₂ (fun s c => Section.At s "<DISPLACEMENT_PATTERN " ∧ (∀ l ∈ s.2.2, ¬ "<DISPLACEMENT_PATTERN ".toList <:+: l) ∧
    List.Forall₂ (ComplexText true) s.2.2 c) f.patterns u

theorem first_column (l : Str) (z : ℚ × ℚ) (h : ComplexText true l z) : ((splitOn ',' [] l).head? >>= floatOf) = some z.1 := by
  obtain ⟨u, v, hu, hv, s, t, rfl, hs, ht, hs', ht'⟩ := h
  have e1 : floatOf s = some z.1 := by rw [floatOf, hs', ← hu]
  rw [splitOn_one ',' s t [] hs ht, List.nil_append]
  exact e1

theorem patternLines_eq (ls : List Str) (c : List (ℚ × ℚ)) (n : Nat) (hn : n ≤ c.length) (r : List Str)
    (h : List.Forall₂ (ComplexText true) ls c) : patternLines n (ls ++ r) = some ((c.take n).map (·.1), ls.drop n ++ r) := by
  induction h generalizing n with
  | nil =>
    obtain rfl : n = 0 := by simpa using hn
    rfl
  | @cons l z ls c h _ ih =>
    cases n with
    | zero => rfl
    | succ n =>
      rw [List.cons_append, patternLines, first_column l z h]
      simp [ih n (by simpa using hn)]

theorem goto_more (p : Str) (a b : List Str) (h : ∀ l ∈ a, ¬ p <:+: l) : goto p (a ++ b) = goto p b := by
  induction a with
  | nil => rfl
  | cons l a ih => rw [List.cons_append, goto, has_false _ _ (h l (by simp)), if_neg (by simp), ih fun l hl => h l (by simp [hl])]

theorem patternLoop_eq (nrep m : Nat) (ss : List Section) (u : List (List (ℚ × ℚ))) (a r : List Str)
    (ha : ∀ l ∈ a, ¬ "<DISPLACEMENT_PATTERN ".toList <:+: l) (hm : m ≤ u.length) (hc : ∀ c ∈ u, nrep ≤ c.length)
    (h : List.Forall₂ (fun s c => Section.At s "<DISPLACEMENT_PATTERN " ∧ (∀ l ∈ s.2.2, ¬ "<DISPLACEMENT_PATTERN ".toList <:+: l) ∧
      List.Forall₂ (ComplexText true) s.2.2 c) ss u) :
    patternLoop nrep m (a ++ (ss.flatMap Section.lines ++ r)) = some ((u.take m).map fun c => (c.take nrep).map (·.1)) := by
  induction h generalizing a m with
  | nil =>
    obtain rfl : m = 0 := by simpa using hm
    rfl
  | @cons s c ss u h _ ih =>
    cases m with
    | zero => rfl
    | succ m =>
      rw [patternLoop, goto_more _ a _ ha, List.flatMap_cons, List.append_assoc, goto_section s _ _ h.1,
        patternLines_eq s.2.2 c nrep (hc c (by simp)) _ h.2.2]
      simp only [Option.bind_eq_bind, Option.bind_some]
      rw [ih m (s.2.2.drop nrep) (fun l hl => h.2.1 l (List.mem_of_mem_drop hl)) (by simpa using hm) fun c hc' => hc c (by simp [hc'])]
      rfl

theorem patternFile_eq (f : PatternFile) (N nrep : Nat) (hN : nrep ≤ N) (u : List (List (ℚ × ℚ))) (h : f.Describes N u) :
    patternFile nrep f.lines = some ((u.take nrep).map fun c => (c.take nrep).map (·.1)) := by
  obtain ⟨a1, ⟨l, h1, h2⟩, hu, hc, hp⟩ := h
  have h3 : intOf l = some (N : Int) := by
    rw [intOf, h2]
    exact readInt_showInt N
  unfold patternFile PatternFile.lines
  rw [goto_section f.number _ _ a1, h1]
  simp only [List.cons_append, List.nil_append, h3, Option.bind_eq_bind, Option.bind_some]
  exact patternLoop_eq nrep nrep f.patterns u [] f.rest (by simp) (by omega) (fun c hc' => by rw [hc c hc']; exact hN) hp

theorem readPatterns_eq (size : Nat) (hsize : 0 < size) (files : Nat → PatternFile) (q : List Nat) (N : Nat → Nat) (nrep : Nat)
    (u : Nat → List (List (ℚ × ℚ))) (h : ∀ iq ∈ q, nrep ≤ N iq ∧ (files (iq + 1)).Describes (N iq) (u iq)) :
    readPatterns size (fun iq => (files iq).lines) q nrep =
      some (q.map fun iq => ((u iq).take nrep).map fun c => (c.take nrep).map (·.1)) := by
  rw [readPatterns, Verif.MPI.C02_parMap size hsize]
  simp only [Option.bind_eq_bind, Option.bind_some]
  apply mapM_map
  intro iq hq
  exact patternFile_eq _ _ _ (h iq hq).1 _ (h iq hq).2

/-- C141 (partial: only if displacement patterns are real): the patterns of all given q points are read correctly on any number of processes. -/
theorem C141_partial (size : Nat) (hsize : 0 < size) (files : Nat → PatternFile) (q : List Nat) (nrep : Nat) (u : Nat → List (List (ℚ × ℚ)))
    (h : ∀ iq ∈ q, (files (iq + 1)).Describes nrep (u iq)) (hr : ∀ iq ∈ q, ∀ c ∈ u iq, ∀ z ∈ c, z.2 = 0) :
    ∃ p, readPatterns size (fun iq => (files iq).lines) q nrep = some p ∧
      p.map (fun m => m.map fun r => r.map fun x => ((x, 0) : ℚ × ℚ)) = q.map u := by
  refine ⟨_, readPatterns_eq size hsize files q (fun _ => nrep) nrep u fun iq hq => ⟨le_rfl, h iq hq⟩, ?_⟩
  rw [List.map_map]
  apply List.map_congr_left
  intro iq hq
  obtain ⟨-, -, hu, hc, -⟩ := h iq hq
  simp only [Function.comp, List.map_map]
  rw [List.take_of_length_le hu.le]
  conv_rhs => rw [← List.map_id (u iq)]
  apply List.map_congr_left
  intro c hcm
  simp only [Function.comp, List.map_map, id]
  rw [List.take_of_length_le (hc c hcm).le]
  conv_rhs => rw [← List.map_id c]
  apply List.map_congr_left
  intro z hz
  simp only [Function.comp, id]
  rw [← hr iq hq c hcm z hz]

/-- C141 is violated by all complex patterns (as they occur for q points that are not equivalent to their negative): the imaginary part is dropped
without notice. -/
theorem C141_complex_violated (size : Nat) (hsize : 0 < size) (files : Nat → PatternFile) (q : List Nat) (nrep : Nat)
    (u : Nat → List (List (ℚ × ℚ))) (h : ∀ iq ∈ q, (files (iq + 1)).Describes nrep (u iq)) (hr : ∃ iq ∈ q, ∃ c ∈ u iq, ∃ z ∈ c, z.2 ≠ 0) :
    ∃ p, readPatterns size (fun iq => (files iq).lines) q nrep = some p ∧
      p.map (fun m => m.map fun r => r.map fun x => ((x, 0) : ℚ × ℚ)) ≠ q.map u := by
  refine ⟨_, readPatterns_eq size hsize files q (fun _ => nrep) nrep u fun iq hq => ⟨le_rfl, h iq hq⟩, fun e => ?_⟩
  obtain ⟨iq, hq, c, hc, z, hz, hz0⟩ := hr
  rw [List.map_map] at e
  have e1 := List.map_inj_left.1 e iq hq
  simp only [Function.comp, List.map_map] at e1
  rw [← e1] at hc
  obtain ⟨c', -, rfl⟩ := List.mem_map.1 hc
  obtain ⟨x, -, rfl⟩ := List.mem_map.1 hz
  exact hz0 rfl

/-- C141 is violated if the given number of representations is too small: the upper left part of the patterns is returned (a message is printed but
no error is raised). -/
theorem C141_number_violated (size : Nat) (hsize : 0 < size) (files : Nat → PatternFile) (q : List Nat) (nrep N : Nat) (hN : nrep < N)
    (u : Nat → List (List (ℚ × ℚ))) (h : ∀ iq ∈ q, (files (iq + 1)).Describes N (u iq)) :
    ∃ p, readPatterns size (fun iq => (files iq).lines) q nrep = some p ∧ ∀ m ∈ p, m.length = nrep ∧ ∀ r ∈ m, r.length = nrep := by
  refine ⟨_, readPatterns_eq size hsize files q (fun _ => N) nrep u fun iq hq => ⟨hN.le, h iq hq⟩, fun m hm => ?_⟩
  obtain ⟨iq, hq, rfl⟩ := List.mem_map.1 hm
  obtain ⟨-, -, hu, hc, -⟩ := h iq hq
  refine ⟨by simp; omega, fun r hr => ?_⟩
  obtain ⟨c, hc', rfl⟩ := List.mem_map.1 hr
  have := hc c (List.mem_of_mem_take hc')
  simp
  omega

/-- A file with displacement patterns. -/
def patternExample (im : String) : PatternFile where
  number := (["<IRREPS_INFO>".toList], "<NUMBER_IRR_REP type=>".toList, ["  1".toList])
  patterns := [(["</NUMBER_IRR_REP>".toList], "<DISPLACEMENT_PATTERN type=>".toList, [" 0.5, ".toList ++ im.toList])]
  rest := []

example : (patternExample "0.5").Describes 1 [[(1 / 2, 1 / 2)]] :=
  ⟨⟨by decide +kernel, by decide +kernel⟩, ⟨_, rfl, by decide +kernel⟩, rfl, by decide +kernel,
    .cons ⟨⟨by decide +kernel, by decide +kernel⟩, by decide +kernel,
      .cons ⟨"0.5".toList, "0.5".toList, by decide +kernel, by decide +kernel, " 0.5".toList, " 0.5".toList, by decide +kernel⟩ .nil⟩ .nil⟩

example : (patternExample "0.0").Describes 1 [[(1 / 2, 0)]] :=
  ⟨⟨by decide +kernel, by decide +kernel⟩, ⟨_, rfl, by decide +kernel⟩, rfl, by decide +kernel,
    .cons ⟨⟨by decide +kernel, by decide +kernel⟩, by decide +kernel,
      .cons ⟨"0.5".toList, "0.0".toList, by decide +kernel, by decide +kernel, " 0.5".toList, " 0.0".toList, by decide +kernel⟩ .nil⟩ .nil⟩

end Verif.Readers
