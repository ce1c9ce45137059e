import Verif.Text.HrDat

/-!
# Coulomb matrices in RESPACK's format survive a write/read round trip (C16)
-/

namespace Verif.Text

open Verif.Lattice (V3)

/-- Words of a line. -/
def wmatWords (a b : Nat) (w : ℚ × ℚ) : List Str := (wmatFields a b w).map Field.text

/-- Lines of one lattice vector. -/
def wmatBlock (size : Nat) (e : V3 × (Nat → Nat → ℚ × ℚ)) : List (List Str) :=
  [[showInt e.1.1, showInt e.1.2.1, showInt e.1.2.2]] ++
    ((List.range size).flatMap fun a => (List.range size).flatMap fun b => [wmatWords a b (e.2 a b)]) ++ [[]]

/-- Can the columns be told apart? -/
structure WmatNarrow (size : Nat) (e : V3 × (Nat → Nat → ℚ × ℚ)) : Prop where
  R : (-10 ^ 10 < e.1.2.1 ∧ e.1.2.1 < 10 ^ 11) ∧ (-10 ^ 10 < e.1.2.2 ∧ e.1.2.2 < 10 ^ 11)
  W : ∀ a < size, ∀ b < size, |(e.2 a b).1| ≤ 10 ^ 7 - 1 ∧ |(e.2 a b).2| ≤ 10 ^ 7 - 1

theorem wmatLine_tokens (a b : Nat) (w : ℚ × ℚ) (hb : b + 1 < 10 ^ 3) (h : |w.1| ≤ 10 ^ 7 - 1 ∧ |w.2| ≤ 10 ^ 7 - 1)
    (r : Str) : tokens (fmt (wmatFields a b w) ++ ['\n'] ++ r) = [wmatWords a b w] ++ tokens r := by
  rw [List.append_assoc, List.singleton_append, tokens_fmt]
  · rfl
  · intro f hf
    simp only [wmatFields, List.mem_cons, List.not_mem_nil, or_false] at hf
    rcases hf with rfl | rfl | rfl | rfl <;> first | exact fInt_solid _ _ _ | exact fFixed_solid _ _ _ _
  · intro f hf
    simp only [wmatFields, List.tail_cons, List.mem_cons, List.not_mem_nil, or_false] at hf
    rcases hf with rfl | rfl | rfl
    · exact fInt_free 0 4 2 _ (by omega) (by omega) (by omega) (by omega)
    · exact fFixed_free 0 20 10 7 _ (by omega) (by omega) (by omega) h.1
    · exact fFixed_free 0 20 10 7 _ (by omega) (by omega) (by omega) h.2

theorem words_newline : words ['\n'] = [] := by decide

theorem wmatBlock_tokens (size : Nat) (hs : size < 10 ^ 3) (e : V3 × (Nat → Nat → ℚ × ℚ)) (he : WmatNarrow size e)
    (r : Str) :
    tokens (fmt [fInt 0 12 e.1.1, fInt 0 12 e.1.2.1, fInt 0 12 e.1.2.2] ++ ['\n'] ++
      ((List.range size).flatMap fun a => (List.range size).flatMap fun b => fmt (wmatFields a b (e.2 a b)) ++ ['\n']) ++
      ['\n'] ++ r) = wmatBlock size e ++ tokens r := by
  simp only [List.append_assoc, List.cons_append, List.nil_append]
  rw [tokens_fmt]
  · rw [tokens_flatMap _ _ (fun a => (List.range size).flatMap fun b => [wmatWords a b (e.2 a b)])]
    · have h1 := tokens_line [] (by simp) r
      rw [List.nil_append] at h1
      rw [h1, List.nil_append, words_newline]
      simp [wmatBlock, fInt]
    · intro a ha r
      refine tokens_flatMap _ _ _ (fun b hb r => ?_) r
      rw [List.mem_range] at ha hb
      exact wmatLine_tokens a b _ (by omega) (he.W a ha b hb) r
  · intro f hf
    simp only [List.mem_cons, List.not_mem_nil, or_false] at hf
    rcases hf with rfl | rfl | rfl <;> exact fInt_solid _ _ _
  · intro f hf
    simp only [List.tail_cons, List.mem_cons, List.not_mem_nil, or_false] at hf
    rcases hf with rfl | rfl
    · exact fInt_free 0 12 10 _ (by omega) (by omega) he.R.1.1 he.R.1.2
    · exact fInt_free 0 12 10 _ (by omega) (by omega) he.R.2.1 he.R.2.2

theorem wmatBlock_length (size : Nat) (e : V3 × (Nat → Nat → ℚ × ℚ)) :
    (wmatBlock size e).length = 1 + size ^ 2 + 1 := by
  unfold wmatBlock
  rw [List.length_append, List.length_append, List.length_flatMap]
  simp [pow_two]

theorem blocks_length (size : Nat) (l : List (V3 × (Nat → Nat → ℚ × ℚ))) :
    (l.flatMap (wmatBlock size)).length = l.length * (1 + size ^ 2 + 1) := by
  rw [List.length_flatMap]
  simp only [wmatBlock_length]
  simp

/-- Value that is read. -/
def wmatValue (w : ℚ × ℚ) : ℚ × ℚ := (roundTo 10 w.1, roundTo 10 w.2)

theorem wmatLine_words (nR nw : Nat) (s : WmatState) (hs : s.count < nR) (a b : Nat) (ha : a < nw) (hb : b < nw)
    (w : ℚ × ℚ) : wmatLine nR nw s (wmatWords a b w) =
      some { s with data := fun n => if n = s.count then setElement (s.data n) a b (wmatValue w) else s.data n } := by
  unfold wmatLine wmatWords wmatFields
  simp only [List.map_cons, List.map_nil, fInt, fFixed, readInt_showInt, readFloat_showFixed 10 (by omega),
    pyIndex_succ _ _ ha, pyIndex_succ _ _ hb, if_pos hs]
  rfl

theorem foldlM_elements (nR nw : Nat) (w : Nat → Nat → ℚ × ℚ) (P : List (Nat × Nat)) (hP : ∀ p ∈ P, p.1 < nw ∧ p.2 < nw)
    (s : WmatState) (hs : s.count < nR) :
    ∃ d : Nat → Elements, (P.map fun p => wmatWords p.1 p.2 (w p.1 p.2)).foldlM (wmatLine nR nw) s =
        some { s with data := d } ∧
      (∀ n ≠ s.count, d n = s.data n) ∧ (∀ p ∈ P, d s.count p.1 p.2 = some (wmatValue (w p.1 p.2))) ∧
      (∀ p ∉ P, d s.count p.1 p.2 = s.data s.count p.1 p.2) := by
  induction P generalizing s with
  | nil => exact ⟨s.data, rfl, fun _ _ => rfl, by simp, by simp⟩
  | cons p P ih =>
    have hp := hP p (by simp)
    set s' : WmatState := { s with data := fun n =>
      if n = s.count then setElement (s.data n) p.1 p.2 (wmatValue (w p.1 p.2)) else s.data n } with hs'
    obtain ⟨d, e1, e2, e3, e4⟩ := ih (fun p h => hP p (by simp [h])) s' hs
    refine ⟨d, ?_, ?_, ?_, ?_⟩
    · rw [List.map_cons, List.foldlM_cons, wmatLine_words nR nw s hs _ _ hp.1 hp.2]
      exact e1
    · intro n hn
      rw [e2 n hn, hs']
      simp [hn]
    · intro x hx
      by_cases h : x ∈ P
      · exact e3 x h
      · rw [List.mem_cons] at hx
        rcases hx with rfl | hx
        · have := e4 x h
          rw [hs'] at this
          simpa [setElement] using this
        · exact absurd hx h
    · intro x hx
      rw [List.mem_cons, not_or] at hx
      have := e4 x hx.2
      rw [hs'] at this
      simp only [if_true] at this
      rw [this, setElement, if_neg]
      rintro ⟨h1, h2⟩
      exact hx.1 (Prod.ext h1 h2)

theorem foldlM_block (nR nw : Nat) (e : V3 × (Nat → Nat → ℚ × ℚ)) (s : WmatState) (hs : s.count < nR) :
    ∃ s' : WmatState, (wmatBlock nw e).foldlM (wmatLine nR nw) s = some s' ∧ s'.count = s.count + 1 ∧
      (∀ n ≠ s.count, s'.R n = s.R n ∧ s'.data n = s.data n) ∧ s'.R s.count = some e.1 ∧
      ∀ a < nw, ∀ b < nw, s'.data s.count a b = some (wmatValue (e.2 a b)) := by
  set s1 : WmatState := { s with R := fun n => if n = s.count then some e.1 else s.R n } with hs1
  have h1 : wmatLine nR nw s [showInt e.1.1, showInt e.1.2.1, showInt e.1.2.2] = some s1 := by
    simp only [wmatLine, readInt_showInt, if_pos hs]
    rfl
  set P := (List.range nw).flatMap fun a => (List.range nw).map fun b => (a, b) with hPd
  have hP : ∀ p ∈ P, p.1 < nw ∧ p.2 < nw := by
    rintro ⟨x, y⟩ hp
    simpa [hPd] using hp
  have hmem : ∀ a < nw, ∀ b < nw, (a, b) ∈ P := by
    intro a ha b hb
    simp [hPd, ha, hb]
  have hmap : ((List.range nw).flatMap fun a => (List.range nw).flatMap fun b => [wmatWords a b (e.2 a b)]) =
      P.map fun p => wmatWords p.1 p.2 (e.2 p.1 p.2) :=
    orbital_pairs nw fun b a => wmatWords a b (e.2 a b)
  obtain ⟨d, e1, e2, e3, e4⟩ := foldlM_elements nR nw e.2 P hP s1 hs
  refine ⟨{ s1 with data := d, count := s.count + 1 }, ?_, rfl, ?_, ?_, ?_⟩
  · unfold wmatBlock
    rw [hmap, List.append_assoc, List.singleton_append, List.foldlM_cons, h1]
    change (P.map _ ++ [[]]).foldlM (wmatLine nR nw) s1 = _
    rw [List.foldlM_append, e1]
    rfl
  · intro n hn
    refine ⟨?_, e2 n hn⟩
    simp [hs1, hn]
  · simp [hs1]
  · intro a ha b hb
    exact e3 (a, b) (hmem a ha b hb)

theorem foldlM_blocks (nR nw : Nat) (l : List (V3 × (Nat → Nat → ℚ × ℚ))) (s : WmatState)
    (hs : s.count + l.length ≤ nR) :
    ∃ s' : WmatState, (l.flatMap (wmatBlock nw)).foldlM (wmatLine nR nw) s = some s' ∧
      (∀ n < s.count, s'.R n = s.R n ∧ s'.data n = s.data n) ∧
      ∀ n (hn : n < l.length), s'.R (s.count + n) = some l[n].1 ∧
        ∀ a < nw, ∀ b < nw, s'.data (s.count + n) a b = some (wmatValue (l[n].2 a b)) := by
  induction l generalizing s with
  | nil => exact ⟨s, rfl, fun _ _ => ⟨rfl, rfl⟩, fun n hn => absurd hn (by simp)⟩
  | cons e l ih =>
    rw [List.length_cons] at hs
    obtain ⟨s1, e1, e2, e3, e4, e5⟩ := foldlM_block nR nw e s (by omega)
    obtain ⟨s2, f1, f2, f3⟩ := ih s1 (by omega)
    refine ⟨s2, ?_, ?_, ?_⟩
    · rw [List.flatMap_cons, List.foldlM_append, e1]
      exact f1
    · intro n hn
      have h1 := f2 n (by omega)
      have h2 := e3 n (by omega)
      exact ⟨h1.1.trans h2.1, h1.2.trans h2.2⟩
    · intro n hn
      cases n with
      | zero =>
        have h1 := f2 s.count (by omega)
        refine ⟨h1.1.trans e4, fun a ha b hb => ?_⟩
        change s2.data s.count a b = _
        rw [h1.2]
        exact e5 a ha b hb
      | succ n =>
        have h1 := f3 n (by simpa using hn)
        rw [e2, show s.count + 1 + n = s.count + (n + 1) by omega] at h1
        exact h1

theorem wmatOrbitals_lines (L : List (List Str)) (hL : ∀ x ∈ L, x ≠ []) (prev : List Str) (r : List (List Str)) :
    wmatOrbitals prev (L ++ [] :: r) = (((L.getLast?).getD prev)[0]?).bind readInt := by
  induction L generalizing prev with
  | nil => simp [wmatOrbitals]
  | cons a L ih =>
    rw [List.cons_append, wmatOrbitals, if_neg (hL a (by simp)), ih fun x hx => hL x (by simp [hx])]
    cases L with
    | nil => simp
    | cons b L =>
      have : ∀ p : List Str, (b :: L).getLast?.getD p = (b :: L).getLast (by simp) := fun p => by
        rw [List.getLast?_eq_some_getLast (by simp), Option.getD_some]
      rw [List.getLast?_cons_cons, this, this]

/-- The number of orbitals is found. -/
theorem wmatOrbitals_block (size : Nat) (h0 : 0 < size) (e : V3 × (Nat → Nat → ℚ × ℚ)) (prev : List Str)
    (r : List (List Str)) : wmatOrbitals prev (wmatBlock size e ++ r) = some (size : Int) := by
  obtain ⟨m, rfl⟩ : ∃ m, size = m + 1 := ⟨size - 1, by omega⟩
  unfold wmatBlock
  rw [List.append_assoc, List.singleton_append, List.singleton_append, wmatOrbitals_lines]
  · have h1 : ((List.range (m + 1)).flatMap fun a => (List.range (m + 1)).flatMap fun b => [wmatWords a b (e.2 a b)]) =
        ((List.range m).flatMap (fun a => (List.range (m + 1)).flatMap fun b => [wmatWords a b (e.2 a b)]) ++
          (List.range m).flatMap fun b => [wmatWords m b (e.2 m b)]) ++ [wmatWords m m (e.2 m m)] := by
      have h2 : ∀ f : Nat → List (List Str), (List.range (m + 1)).flatMap f = (List.range m).flatMap f ++ f m := fun f => by
        rw [List.range_succ, List.flatMap_append, List.flatMap_singleton]
      rw [h2 fun a => (List.range (m + 1)).flatMap fun b => [wmatWords a b (e.2 a b)], List.append_assoc]
      congr 1
      exact h2 _
    rw [h1, ← List.cons_append, List.getLast?_append]
    simp only [List.getLast?_singleton, Option.some_or, Option.getD_some]
    simp only [wmatWords, wmatFields, List.map_cons, fInt, List.getElem?_cons_zero, Option.bind_some, readInt_showInt]
    push_cast
    rfl
  · intro x hx
    simp only [List.mem_cons, List.mem_flatMap, List.not_mem_nil, or_false] at hx
    rcases hx with rfl | ⟨a, -, b, -, rfl⟩
    · simp
    · simp [wmatWords, wmatFields]

/-- C16: A file written by `to_Wmat` can be read by `read_dat_mat`: the lattice vectors are the same, matrix elements differ
by half a unit of the tenth decimal at most. Restricted to fewer than 1000 orbitals and values for which columns are
separated. -/
theorem C16_partial (header : List Str) (hh : header.length = 3 ∧ ∀ h ∈ header, '\n' ∉ h) (size : Nat) (h0 : 0 < size)
    (hs : size < 10 ^ 3) (l : List (V3 × (Nat → Nat → ℚ × ℚ))) (hl : l ≠ []) (hn : ∀ e ∈ l, WmatNarrow size e) :
    ∃ R W, readWmat (writeWmat header size l) = some (l.length, R, W) ∧ ∀ n (hn : n < l.length), R n = some l[n].1 ∧
      ∀ a < size, ∀ b < size, ∃ x y, W n a b = some (x, y) ∧
        |x - (l[n].2 a b).1| ≤ 1 / 2 / 10 ^ 10 ∧ |y - (l[n].2 a b).2| ≤ 1 / 2 / 10 ^ 10 := by
  have htok : tokens (writeWmat header size l) =
      (header.map fun h => words (h ++ ['\n'])) ++ l.flatMap (wmatBlock size) := by
    unfold writeWmat
    rw [tokens_flatMap _ _ (fun h => [words (h ++ ['\n'])]) fun h hm r => by
      rw [List.append_assoc, List.singleton_append, tokens_line _ (hh.2 h hm), List.singleton_append]]
    have h2 := tokens_flatMap l _ _ (fun e he r => wmatBlock_tokens size hs e (hn e he) r) []
    rw [List.append_nil, tokens_nil, List.append_nil] at h2
    rw [h2]
    congr 1
    generalize header = l
    induction l with
    | nil => rfl
    | cons a l ih => simpa using ih
  have hlen : (header.map fun h => words (h ++ ['\n'])).length = 3 := by rw [List.length_map, hh.1]
  have hdrop : (tokens (writeWmat header size l)).drop 3 = l.flatMap (wmatBlock size) := by
    rw [htok, List.drop_left' hlen]
  have hnw : wmatOrbitals ((tokens (writeWmat header size l)).getD 2 []) (l.flatMap (wmatBlock size)) =
      some (size : Int) := by
    cases l with
    | nil => exact absurd rfl hl
    | cons e l =>
      rw [List.flatMap_cons]
      exact wmatOrbitals_block size h0 e _ _
  have hnR : ((tokens (writeWmat header size l)).length - 3) / (1 + size ^ 2 + 1) = l.length := by
    rw [htok, List.length_append, hlen, blocks_length, Nat.add_sub_cancel_left, Nat.mul_div_cancel _ (by omega)]
  obtain ⟨s, e1, -, e3⟩ := foldlM_blocks l.length size l ⟨0, fun _ => none, fun _ _ _ => none⟩ (by simp)
  refine ⟨s.R, s.data, ?_, fun n hn => ?_⟩
  · unfold readWmat
    simp only
    rw [hdrop, hnw]
    simp only [Int.toNat_natCast, hnR]
    rw [if_neg (by omega), e1]
    rfl
  · have h := e3 n hn
    simp only [Nat.zero_add] at h
    exact ⟨h.1, fun a ha b hb => ⟨_, _, h.2 a ha b hb, roundTo_near 10 _, roundTo_near 10 _⟩⟩

/-- The lines of comments. -/
def exampleHeader : List Str := ["# Coulomb interaction W at omega = 0".toList, "# 1: R1, 2: R2, 3: R3 (lattice vector)".toList,
  "# 1: i, 2: j, 3: Re[W] (eV), 4: Im[W] (eV)".toList]

example : exampleHeader.length = 3 ∧ ∀ h ∈ exampleHeader, '\n' ∉ h := by decide

example : ∀ e ∈ [(((0, 0, 0), fun a b => (a + 1 / 3, b)) : V3 × (Nat → Nat → ℚ × ℚ)), ((0, -1, 2), fun _ _ => (-999, 1 / 7))],
    WmatNarrow 5 e := by
  intro e he
  simp only [List.mem_cons, List.not_mem_nil, or_false] at he
  rcases he with rfl | rfl
  · refine ⟨by norm_num, fun a ha b hb => ?_⟩
    simp only
    have h1 : (a : ℚ) ≤ 5 := by exact_mod_cast ha.le
    have h2 : (b : ℚ) ≤ 5 := by exact_mod_cast hb.le
    have h3 : (0 : ℚ) ≤ a := Nat.cast_nonneg a
    have h4 : (0 : ℚ) ≤ b := Nat.cast_nonneg b
    constructor <;> rw [abs_le] <;> constructor <;> linarith
  · refine ⟨by norm_num, fun a ha b hb => ?_⟩
    norm_num [abs_of_neg, abs_of_pos]

/-- C16 is violated: a file with a matrix element of -10⁸ cannot be read (lines with glued columns are taken for lattice
vectors). -/
theorem C16_violated : readWmat (writeWmat exampleHeader 1 [((0, 0, 0), fun _ _ => (0, -10 ^ 8))]) = none := by
  decide +kernel

end Verif.Text
