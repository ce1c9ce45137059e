import Verif.Text.HrDat

/-!
# Generic array files (C50)
-/

namespace Verif.Text

theorem fExp_solid (sp w : Nat) (c : Char) (hc : isExp c = true) (d : Nat) (x : ℚ) : Solid (fExp sp w c d x).text :=
  showExp_solid c hc d x

theorem showInt_natCast (n : Nat) : showInt (n : Int) = showNat n := by
  unfold showInt
  rw [if_neg (by omega), Int.natAbs_natCast]

theorem intFields_solid (sp : Nat) (s l : List Nat) : ∀ f ∈ intFields sp s l, Solid f.text := by
  induction s generalizing sp l with
  | nil => simp [intFields]
  | cons n s ih =>
    cases l with
    | nil => simp [intFields]
    | cons i l =>
      intro f hf
      rw [intFields, List.mem_cons] at hf
      rcases hf with rfl | hf
      · exact fInt_solid _ _ _
      · exact ih 1 l f hf

theorem intFields_free (s l : List Nat) : ∀ f ∈ intFields 1 s l, f.Free := by
  induction s generalizing l with
  | nil => simp [intFields]
  | cons n s ih =>
    cases l with
    | nil => simp [intFields]
    | cons i l =>
      intro f hf
      rw [intFields, List.mem_cons] at hf
      rcases hf with rfl | hf
      · exact Or.inl Nat.one_pos
      · exact ih l f hf

theorem intFields_tail_free (s l : List Nat) (r : List Field) (hr : ∀ f ∈ r, f.Free) :
    ∀ f ∈ (intFields 0 s l ++ r).tail, f.Free := by
  cases s with
  | nil => exact fun f hf => hr f (List.mem_of_mem_tail hf)
  | cons n s =>
    cases l with
    | nil => exact fun f hf => hr f (List.mem_of_mem_tail hf)
    | cons i l =>
      intro f hf
      rw [intFields, List.cons_append, List.tail_cons, List.mem_append] at hf
      rcases hf with hf | hf
      · exact intFields_free s l f hf
      · exact hr f hf

theorem intFields_text (sp : Nat) (s l : List Nat) (h : s.length = l.length) :
    (intFields sp s l).map Field.text = l.map fun i : Nat => showInt i := by
  induction s generalizing sp l with
  | nil =>
    cases l with
    | nil => rfl
    | cons i l => simp at h
  | cons n s ih =>
    cases l with
    | nil => simp at h
    | cons i l =>
      rw [intFields, List.map_cons, ih 1 l (by simpa using h)]
      rfl

theorem mem_indices (s i : List Nat) : i ∈ indices s ↔ List.Forall₂ (fun a n => a < n) i s := by
  induction s generalizing i with
  | nil => simp [indices]
  | cons n s ih =>
    simp only [indices, List.mem_flatMap, List.mem_range, List.mem_map]
    constructor
    · rintro ⟨a, ha, t, ht, rfl⟩
      exact List.Forall₂.cons ha ((ih t).1 ht)
    · intro h
      cases h with
      | cons ha ht => exact ⟨_, ha, _, (ih _).2 ht, rfl⟩

theorem pyIndex_nat (n a : Nat) (h : a < n) : pyIndex n (a : Int) = some a := by
  unfold pyIndex
  rw [if_pos (by omega), Int.toNat_natCast]

theorem zip_pyIndex (s i : List Nat) (h : List.Forall₂ (fun a n => a < n) i s) :
    (s.zip (i.map fun a : Nat => (a : Int))).mapM (fun p => pyIndex p.1 p.2) = some i := by
  induction h with
  | nil => rfl
  | cons ha _ ih =>
    rw [List.map_cons, List.zip_cons_cons, List.mapM_cons, pyIndex_nat _ _ ha, ih]
    rfl

/-- Value that is read. -/
def dataValue (cplx : Bool) (v : ℚ × ℚ) : ℚ × ℚ := (roundExp 9 v.1, if cplx then roundExp 9 v.2 else 0)

theorem dataLine_words (cplx : Bool) (s i : List Nat) (h : List.Forall₂ (fun a n => a < n) i s) (v : ℚ × ℚ)
    (d : List Nat → Option (ℚ × ℚ)) :
    dataLine cplx s d ((intFields 0 s i ++ if cplx then [fExp 1 16 'e' 9 v.1, fExp 1 16 'e' 9 v.2] else
      [fExp 1 16 'e' 9 v.1]).map Field.text) = some fun j => if j = i then some (dataValue cplx v) else d j := by
  have hl : s.length = i.length := h.length_eq.symm
  have hl' : ((intFields 0 s i).map Field.text).length = s.length := by
    rw [intFields_text _ _ _ hl, List.length_map, hl]
  unfold dataLine
  rw [List.map_append, List.take_left' hl', List.drop_left' hl', intFields_text _ _ _ hl,
    mapM_map _ _ (fun a : Nat => (a : Int)) _ fun a _ => readInt_showInt a]
  have he : isExp 'e' = true := by decide
  cases cplx with
  | true =>
    simp only [if_true, List.map_cons, List.map_nil, fExp, List.mapM_cons, List.mapM_nil,
      readFloat_showExp 'e' he 9 (by omega), dataValue]
    change (if _ then none else _) = _
    rw [if_neg (by simp [hl]), zip_pyIndex s i h]
  | false =>
    simp only [Bool.false_eq_true, if_false, List.map_cons, List.map_nil, fExp, List.mapM_cons, List.mapM_nil,
      readFloat_showExp 'e' he 9 (by omega), dataValue]
    change (if _ then none else _) = _
    rw [if_neg (by simp [hl]), zip_pyIndex s i h]

theorem foldlM_dataLine (cplx : Bool) (s : List Nat) (data : List Nat → ℚ × ℚ) (I : List (List Nat))
    (hI : ∀ i ∈ I, List.Forall₂ (fun a n => a < n) i s) (d : List Nat → Option (ℚ × ℚ)) :
    ∃ d', (I.map fun i => (intFields 0 s i ++ if cplx then [fExp 1 16 'e' 9 (data i).1, fExp 1 16 'e' 9 (data i).2] else
        [fExp 1 16 'e' 9 (data i).1]).map Field.text).foldlM (dataLine cplx s) d = some d' ∧
      (∀ i ∈ I, d' i = some (dataValue cplx (data i))) ∧ ∀ i ∉ I, d' i = d i := by
  induction I generalizing d with
  | nil => exact ⟨d, rfl, by simp, by simp⟩
  | cons a I ih =>
    obtain ⟨d', e1, e2, e3⟩ := ih (fun i h => hI i (by simp [h])) fun j =>
      if j = a then some (dataValue cplx (data a)) else d j
    refine ⟨d', ?_, ?_, ?_⟩
    · rw [List.map_cons, List.foldlM_cons, dataLine_words cplx s a (hI a (by simp))]
      exact e1
    · intro i hi
      by_cases h : i ∈ I
      · exact e2 i h
      · rw [List.mem_cons] at hi
        rcases hi with rfl | hi
        · rw [e3 i h, if_pos rfl]
        · exact absurd hi h
    · intro i hi
      rw [List.mem_cons, not_or] at hi
      rw [e3 i hi.2, if_neg hi.1]

/-- C50: With Python 2, a file written by `write_data` can be read by `read_data`: shape and type are the same, values have a
relative error of half a unit of the tenth digit at most. (With Python 3, see `C50_violated`.) -/
theorem C50_partial (cplx : Bool) (shape : List Nat) (data : List Nat → ℚ × ℚ) :
    ∃ d, readData true (writeData cplx shape data) = some (shape, cplx, d) ∧
      ∀ i, List.Forall₂ (fun a n => a < n) i shape → ∃ x y, d i = some (x, y) ∧
        |x - (data i).1| ≤ |(data i).1| / 2 / 10 ^ 9 ∧
        (if cplx then |y - (data i).2| ≤ |(data i).2| / 2 / 10 ^ 9 else y = 0) := by
  have he : isExp 'e' = true := by decide
  have hfl : ∀ i, ∀ f ∈ (if cplx then [fExp 1 16 'e' 9 (data i).1, fExp 1 16 'e' 9 (data i).2] else
      [fExp 1 16 'e' 9 (data i).1] : List Field), Solid f.text ∧ f.Free := by
    intro i f hf
    split at hf <;> simp only [List.mem_cons, List.not_mem_nil, or_false] at hf
    · rcases hf with rfl | rfl <;> exact ⟨fExp_solid _ _ _ he _ _, Or.inl Nat.one_pos⟩
    · subst hf
      exact ⟨fExp_solid _ _ _ he _ _, Or.inl Nat.one_pos⟩
  have hbody : ∀ r : Str, tokens (((indices shape).flatMap fun i => fmt (intFields 0 shape i ++
      if cplx then [fExp 1 16 'e' 9 (data i).1, fExp 1 16 'e' 9 (data i).2] else [fExp 1 16 'e' 9 (data i).1]) ++
        ['\n']) ++ r) = ((indices shape).flatMap fun i => [(intFields 0 shape i ++
      if cplx then [fExp 1 16 'e' 9 (data i).1, fExp 1 16 'e' 9 (data i).2] else
        [fExp 1 16 'e' 9 (data i).1]).map Field.text]) ++ tokens r := by
    refine tokens_flatMap _ _ _ fun i _ r => ?_
    rw [List.append_assoc, List.singleton_append, tokens_fmt]
    · rfl
    · intro f hf
      rw [List.mem_append] at hf
      rcases hf with hf | hf
      · exact intFields_solid _ _ _ f hf
      · exact (hfl i f hf).1
    · exact intFields_tail_free _ _ _ fun f hf => (hfl i f hf).2
  have hmap : ∀ (I : List (List Nat)) (g : List Nat → List Str), I.flatMap (fun i => [g i]) = I.map g := by
    intro I g
    induction I with
    | nil => rfl
    | cons a I ih => simp [ih]
  have hb := hbody []
  rw [List.append_nil, tokens_nil, List.append_nil, hmap] at hb
  set c : Str := if cplx then ['C'] else ['R'] with hc
  have hcs : Solid c := by
    rw [hc]
    split <;> exact ⟨by simp, by decide⟩
  obtain ⟨d, e1, e2, -⟩ := foldlM_dataLine cplx shape data (indices shape) (fun i hi => (mem_indices shape i).1 hi)
    fun _ => none
  refine ⟨d, ?_, fun i hi => ?_⟩
  · unfold readData writeData
    rw [if_pos rfl, tokens_fmt, hb, List.map_append, intFields_text _ _ _ rfl]
    · simp only [List.map_cons, List.map_nil, List.dropLast_concat, List.getLast?_concat]
      rw [mapM_map _ _ (fun a : Nat => (a : Int)) _ fun a _ => readInt_showInt a]
      simp only [List.map_map]
      have h1 : List.map (Int.toNat ∘ fun a : Nat => (a : Int)) shape = shape := by
        conv_rhs => rw [← List.map_id shape]
        exact List.map_congr_left fun a _ => Int.toNat_natCast a
      have h2 : decide (c = ['C']) = cplx := by
        rw [hc]
        cases cplx <;> decide
      rw [h1, if_neg]
      · simp only [← hc, h2, e1, Option.map_some]
      · rw [not_or]
        constructor
        · cases cplx <;> decide
        · rintro ⟨n, hn, h⟩
          obtain ⟨a, -, rfl⟩ := List.mem_map.1 hn
          omega
    · intro f hf
      rw [List.mem_append, List.mem_singleton] at hf
      rcases hf with hf | rfl
      · exact intFields_solid _ _ _ f hf
      · exact hcs
    · exact intFields_tail_free _ _ _ fun f hf => by
        rw [List.mem_singleton] at hf
        subst hf
        exact Or.inl Nat.one_pos
  · refine ⟨_, _, e2 i ((mem_indices shape i).2 hi), roundExp_near 9 _, ?_⟩
    cases cplx
    · simp [dataValue]
    · simpa [dataValue] using roundExp_near 9 (data i).2

/-- An index of an array with three dimensions. -/
example : List.Forall₂ (fun a n => a < n) [1, 0, 4] [2, 3, 5] := by decide

/-- C50 is violated: with Python 3, the round trip fails for all arrays. -/
theorem C50_violated (cplx : Bool) (shape : List Nat) (data : List Nat → ℚ × ℚ) :
    ¬ ∃ d, readData false (writeData cplx shape data) = some (shape, cplx, d) := by
  rintro ⟨d, h⟩
  simp [readData] at h

end Verif.Text
