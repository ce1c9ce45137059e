import Verif.Text.Formats
import Verif.Text.Lemmas
import Verif.TB.Lemmas

/-!
# Wannier90 files survive a write/read round trip (C48)
-/

namespace Verif.Text

open Verif.Lattice (V3)
open Verif.TB (lexLe lexLe_trans lexLe_total)

/-- Text consisting of parts that consist of lines. -/
theorem tokens_flatMap {α : Type} (l : List α) (f : α → Str) (t : α → List (List Str))
    (h : ∀ a ∈ l, ∀ r, tokens (f a ++ r) = t a ++ tokens r) (r : Str) :
    tokens (l.flatMap f ++ r) = l.flatMap t ++ tokens r := by
  induction l with
  | nil => simp
  | cons a l ih =>
    rw [List.flatMap_cons, List.append_assoc, h a (by simp), ih fun b hb => h b (by simp [hb]), List.flatMap_cons,
      List.append_assoc]

theorem fInt_solid (sp w : Nat) (z : Int) : Solid (fInt sp w z).text := showInt_solid z

theorem fFixed_solid (sp w d : Nat) (x : ℚ) : Solid (fFixed sp w d x).text := showFixed_solid d x

/-- Integers that do not fill the width. -/
theorem fInt_free (sp w k : Nat) (z : Int) (hk : 0 < k) (hw : k + 1 < w) (h1 : -10 ^ k < z) (h2 : z < 10 ^ (k + 1)) :
    (fInt sp w z).Free := Or.inr (lt_of_le_of_lt (showInt_length z k hk h1 h2) hw)

/-- Fixed-point numbers that do not fill the width. -/
theorem fFixed_free (sp w d k : Nat) (x : ℚ) (hd : 0 < d) (hk : 0 < k) (hw : k + d + 2 < w) (h : |x| ≤ 10 ^ k - 1) :
    (fFixed sp w d x).Free := Or.inr (lt_of_le_of_lt (showFixed_length d k hd hk x h).1 hw)

theorem flatten_ne_nil_length (L : List (List Str)) (h : ∀ l ∈ L, l ≠ []) (hL : L ≠ []) : 0 < L.flatten.length := by
  cases L with
  | nil => exact absurd rfl hL
  | cons a L =>
    have := List.length_pos_of_ne_nil (h a (by simp))
    rw [List.flatten_cons, List.length_append]
    omega

/-- Lines with degeneracies. -/
theorem tokens_degText (l : List Int) (hl : ∀ d ∈ l, 0 ≤ d ∧ d < 10 ^ 4) (n : Nat) (pre : List Field)
    (h1 : ∀ f ∈ pre, Solid f.text) (h2 : ∀ f ∈ pre, f.Free) (hne : l ≠ []) (r : Str) :
    ∃ L : List (List Str), tokens (fmt pre ++ (degText n l ++ r)) = L ++ tokens r ∧
      L.flatten = pre.map Field.text ++ l.map showInt ∧ ∀ x ∈ L, x ≠ [] := by
  induction l generalizing n pre with
  | nil => exact absurd rfl hne
  | cons d l ih =>
    have hd := hl d (by simp)
    have hs : ∀ f ∈ pre ++ [fInt 0 5 d], Solid f.text := by
      intro f hf
      rw [List.mem_append, List.mem_singleton] at hf
      rcases hf with hf | rfl
      · exact h1 f hf
      · exact fInt_solid _ _ _
    have hf : ∀ f ∈ pre ++ [fInt 0 5 d], f.Free := by
      intro f hf
      rw [List.mem_append, List.mem_singleton] at hf
      rcases hf with hf | rfl
      · exact h2 f hf
      · exact fInt_free 0 5 3 d (by omega) (by omega) (by omega) hd.2
    rw [degText]
    by_cases hn : n % 15 = 0 ∨ l = []
    · rw [if_pos hn]
      have e : fmt pre ++ (fmt [fInt 0 5 d] ++ ['\n'] ++ degText (n + 1) l ++ r) =
          fmt (pre ++ [fInt 0 5 d]) ++ '\n' :: (degText (n + 1) l ++ r) := by
        rw [fmt_append]
        simp
      rw [e, tokens_fmt _ hs fun f h => hf f (List.mem_of_mem_tail h)]
      by_cases hl0 : l = []
      · subst hl0
        exact ⟨[(pre ++ [fInt 0 5 d]).map Field.text], by simp [degText], by simp [fInt], by simp⟩
      · obtain ⟨L, e1, e2, e3⟩ := ih (fun d h => hl d (by simp [h])) (n + 1) [] (by simp) (by simp) hl0
        refine ⟨(pre ++ [fInt 0 5 d]).map Field.text :: L, ?_, ?_, ?_⟩
        · rw [List.cons_append, ← e1]
          simp [fmt]
        · rw [List.flatten_cons, e2]
          simp [fInt]
        · intro x hx
          rw [List.mem_cons] at hx
          rcases hx with rfl | hx
          · simp
          · exact e3 x hx
    · rw [if_neg hn]
      push Not at hn
      obtain ⟨L, e1, e2, e3⟩ := ih (fun d h => hl d (by simp [h])) (n + 1) (pre ++ [fInt 0 5 d]) hs hf hn.2
      refine ⟨L, ?_, ?_, e3⟩
      · rw [← e1, fmt_append]
        simp
      · rw [e2]
        simp [fInt]

/-- Integers read as floating-point numbers. -/
theorem readFloat_showInt (z : Int) (hz : 0 ≤ z) : readFloat (showInt z) = some (z : ℚ) := by
  unfold readFloat showInt
  rw [if_neg (not_lt.2 hz), sign_digits _ (showNat_digits _)]
  have hd := showNat_digits z.natAbs
  have ht := takeWhile_all (p := fun c => !isExp c) (showNat z.natAbs) fun c hc => by
    obtain ⟨x, hx, rfl⟩ := hd c hc
    simp [(digit_props x hx).2.2.2.2]
  have hp := takeWhile_all (p := (· ≠ '.')) (showNat z.natAbs) fun c hc => by
    obtain ⟨x, hx, rfl⟩ := hd c hc
    simpa using (digit_props x hx).2.1
  simp only [ht.1, ht.2, if_true, readMantissa, hp.1, hp.2, List.tail_nil]
  rw [if_neg fun h => showNat_ne _ h.1, readDigits_showNat]
  simp only [readDigits, Nat.cast_zero, zero_div, add_zero, Bool.false_eq_true, if_false, one_mul, zpow_zero, mul_one,
    Option.some.injEq]
  have e : ((z.natAbs : ℕ) : ℤ) = z := Int.natAbs_of_nonneg hz
  calc ((z.natAbs : ℕ) : ℚ) = (((z.natAbs : ℕ) : ℤ) : ℚ) := (Int.cast_natCast _).symm
    _ = z := by rw [e]

theorem readDeg_lines (n : Nat) (L : List (List Str)) (hL : ∀ x ∈ L, x ≠ []) (l : List Int) (hl : ∀ d ∈ l, 0 ≤ d)
    (e : L.flatten = l.map showInt) (acc : List ℚ) (hn : acc.length + l.length = n) (r : List (List Str)) :
    readDeg n acc (L ++ r) = some (acc ++ l.map fun d : Int => (d : ℚ), r) := by
  induction L generalizing l acc with
  | nil =>
    have hl0 : l = [] := by simpa using e.symm
    subst hl0
    rw [List.nil_append, List.map_nil, List.append_nil]
    cases r with
    | nil => rw [readDeg, if_neg (by simp at hn; omega)]
    | cons a r => rw [readDeg, if_neg (by simp at hn; omega)]
  | cons a L ih =>
    rw [List.flatten_cons] at e
    have ha := List.length_pos_of_ne_nil (hL a (by simp))
    have hlen : a.length + L.flatten.length = l.length := by
      have := congrArg List.length e
      simpa using this
    have e1 : a = (l.take a.length).map showInt := by
      rw [List.map_take, ← e, List.take_left']
      rfl
    have e2 : L.flatten = (l.drop a.length).map showInt := by
      rw [List.map_drop, ← e, List.drop_left']
      rfl
    rw [List.cons_append, readDeg, if_pos (by omega)]
    have h3 : a.mapM readFloat = some ((l.take a.length).map fun d : Int => (d : ℚ)) := by
      conv_lhs => rw [e1]
      exact mapM_map _ _ _ _ fun d hd => readFloat_showInt d (hl d (List.mem_of_mem_take hd))
    rw [h3]
    simp only
    rw [ih (fun x hx => hL x (by simp [hx])) (l.drop a.length) (fun d hd => hl d (List.mem_of_mem_drop hd)) e2]
    · rw [List.append_assoc, ← List.map_append, List.take_append_drop]
    · rw [List.length_append, List.length_map, List.length_take, List.length_drop]
      omega

/-- Values that are read. -/
def hrValue (d : ℚ) (v : ℚ × ℚ) : ℚ × ℚ := (roundTo 6 v.1 / d, roundTo 6 v.2 / d)

/-- Words of a line. -/
def hrWords (R : V3) (a b : Nat) (h : ℚ × ℚ) : List Str := (hrFields R a b h).map Field.text

theorem pyIndex_succ (n a : Nat) (h : a < n) : pyIndex n ((a : Int) + 1 - 1) = some a := by
  unfold pyIndex
  rw [if_pos (by omega)]
  congr 1
  omega

theorem hrElement_words (nw : Nat) (d : ℚ) (hd : d ≠ 0) (c : Elements) (R : V3) (a b : Nat) (ha : a < nw) (hb : b < nw)
    (h : ℚ × ℚ) : hrElement nw d c (hrWords R a b h) = some (setElement c a b (hrValue d h)) := by
  unfold hrElement hrWords hrFields fromEnd
  simp only [List.map_cons, List.map_nil, fInt, fFixed, List.reverse_cons, List.reverse_nil, List.nil_append,
    List.cons_append, List.getElem?_cons_succ, List.getElem?_cons_zero, Option.bind_some, readInt_showInt,
    readFloat_showFixed 6 (by omega), if_neg hd, pyIndex_succ _ _ ha, pyIndex_succ _ _ hb, Nat.add_one_sub_one,
    Nat.reduceSub]
  rfl

theorem readHrEntries_words (nw : Nat) (d : ℚ) (hd : d ≠ 0) (R : V3) (H : Nat → Nat → ℚ × ℚ) (P : List (Nat × Nat))
    (hP : ∀ p ∈ P, p.1 < nw ∧ p.2 < nw) (c : Elements) (tmp : List Str) (ls : List (List Str)) :
    ∃ c' tmp', readHrEntries nw d P.length c tmp (P.map (fun p => hrWords R p.2 p.1 (H p.2 p.1)) ++ ls) =
        some (c', tmp', ls) ∧
      (∀ i j, c' i j = if (j, i) ∈ P then some (hrValue d (H i j)) else c i j) ∧
      (P ≠ [] → tmp'.take 3 = [showInt R.1, showInt R.2.1, showInt R.2.2]) ∧ (P = [] → tmp' = tmp) := by
  induction P generalizing c tmp with
  | nil => exact ⟨c, tmp, rfl, by simp, by simp, by simp⟩
  | cons p P ih =>
    have hp := hP p (by simp)
    obtain ⟨c', tmp', e1, e2, e3, e4⟩ := ih (fun p h => hP p (by simp [h])) (setElement c p.2 p.1 (hrValue d (H p.2 p.1)))
      (hrWords R p.2 p.1 (H p.2 p.1))
    refine ⟨c', tmp', ?_, ?_, ?_, by simp⟩
    · rw [List.length_cons, List.map_cons, List.cons_append, readHrEntries, cols_cons _ (by simp [hrWords, hrFields])]
      simp only
      rw [hrElement_words nw d hd c R _ _ hp.2 hp.1]
      exact e1
    · intro i j
      rw [e2]
      by_cases h : (j, i) ∈ P
      · simp [h]
      · by_cases h' : (j, i) = p
        · rw [if_neg h, if_pos (by simp [h'])]
          subst h'
          simp [setElement]
        · rw [if_neg h, if_neg (by simp [h, h']), setElement, if_neg]
          rintro ⟨rfl, rfl⟩
          exact h' rfl
    · intro _
      by_cases hP0 : P = []
      · rw [e4 hP0]
        simp [hrWords, hrFields, fInt]
      · exact e3 hP0

/-- Pairs of orbitals in the order of the file. -/
theorem orbital_pairs {β : Type} (n : Nat) (f : Nat → Nat → β) :
    (List.range n).flatMap (fun b => (List.range n).flatMap fun a => [f a b]) =
      ((List.range n).flatMap fun b => (List.range n).map fun a => (b, a)).map fun p => f p.2 p.1 := by
  rw [List.map_flatMap]
  congr 1
  funext b
  rw [List.map_map]
  induction List.range n with
  | nil => rfl
  | cons a l ih => simp [ih]

theorem orbital_pairs_length (n : Nat) :
    ((List.range n).flatMap fun b => (List.range n).map fun a => (b, a)).length = n ^ 2 := by
  rw [List.length_flatMap]
  simp [pow_two]

/-- Can the columns be told apart? -/
structure HrEntry.Narrow (e : HrEntry) (size : Nat) : Prop where
  deg : 0 < e.deg ∧ e.deg < 10 ^ 4
  R : (-10 ^ 3 < e.R.2.1 ∧ e.R.2.1 < 10 ^ 4) ∧ (-10 ^ 3 < e.R.2.2 ∧ e.R.2.2 < 10 ^ 4)
  H : ∀ a < size, ∀ b < size, |(e.H a b).1| ≤ 999 ∧ |(e.H a b).2| ≤ 999

theorem hrLine_tokens (e : HrEntry) (size : Nat) (hs : size < 10 ^ 4) (he : e.Narrow size) (a b : Nat) (ha : a < size)
    (hb : b < size) (r : Str) :
    tokens (fmt (hrFields e.R a b (e.H a b)) ++ ['\n'] ++ r) = [hrWords e.R a b (e.H a b)] ++ tokens r := by
  have h := he.H a ha b hb
  rw [List.append_assoc, List.singleton_append, tokens_fmt]
  · rfl
  · intro f hf
    simp only [hrFields, List.mem_cons, List.not_mem_nil, or_false] at hf
    rcases hf with rfl | rfl | rfl | rfl | rfl | rfl | rfl <;> first | exact fInt_solid _ _ _ | exact fFixed_solid _ _ _ _
  · intro f hf
    simp only [hrFields, List.tail_cons, List.mem_cons, List.not_mem_nil, or_false] at hf
    rcases hf with rfl | rfl | rfl | rfl | rfl | rfl
    · exact fInt_free 0 5 3 _ (by omega) (by omega) he.R.1.1 he.R.1.2
    · exact fInt_free 0 5 3 _ (by omega) (by omega) he.R.2.1 he.R.2.2
    · exact fInt_free 0 5 3 _ (by omega) (by omega) (by omega) (by omega)
    · exact fInt_free 0 5 3 _ (by omega) (by omega) (by omega) (by omega)
    · exact fFixed_free 0 12 6 3 _ (by omega) (by omega) (by omega) (h.1.trans (by norm_num))
    · exact fFixed_free 0 12 6 3 _ (by omega) (by omega) (by omega) (h.2.trans (by norm_num))

theorem readHrBlocks_lines (size : Nat) (h0 : 0 < size) (D : HrEntry → ℚ) (l : List HrEntry) (hD : ∀ e ∈ l, D e ≠ 0) :
    ∃ out, readHrBlocks size (l.map D) (l.flatMap fun e => (List.range size).flatMap fun b =>
        (List.range size).flatMap fun a => [hrWords e.R a b (e.H a b)]) = some out ∧
      List.Forall₂ (fun (e : HrEntry) (o : V3 × Elements) => o.1 = e.R ∧
        ∀ a < size, ∀ b < size, o.2 a b = some (hrValue (D e) (e.H a b))) l out := by
  induction l with
  | nil => exact ⟨[], rfl, List.Forall₂.nil⟩
  | cons e l ih =>
    obtain ⟨out, e1, e2⟩ := ih fun e h => hD e (by simp [h])
    rw [List.map_cons, List.flatMap_cons, orbital_pairs size fun a b => hrWords e.R a b (e.H a b)]
    set P := (List.range size).flatMap fun b => (List.range size).map fun a => (b, a) with hPd
    have hP : ∀ p ∈ P, p.1 < size ∧ p.2 < size := by
      rintro ⟨x, y⟩ hp
      simpa [hPd] using hp
    have hmem : ∀ a < size, ∀ b < size, (b, a) ∈ P := by
      intro a ha b hb
      simp [hPd, ha, hb]
    have hlen : P.length = size ^ 2 := orbital_pairs_length size
    obtain ⟨c', tmp', f1, f2, f3, -⟩ := readHrEntries_words size (D e) (hD e (by simp)) e.R e.H P hP (fun _ _ => none) []
      (l.flatMap fun e => (List.range size).flatMap fun b =>
        (List.range size).flatMap fun a => [hrWords e.R a b (e.H a b)])
    refine ⟨(e.R, c') :: out, ?_, List.Forall₂.cons ⟨rfl, fun a ha b hb => ?_⟩ e2⟩
    · rw [readHrBlocks, ← hlen, f1]
      simp only
      rw [f3 (List.ne_nil_of_mem (hmem 0 h0 0 h0)), e1]
      simp only [List.mapM_cons, List.mapM_nil, readInt_showInt]
      rfl
    · exact (f2 a b).trans (if_pos (hmem a ha b hb))

/-- What is read from the file. -/
theorem readHr_writeHr (date : Str) (hdate : '\n' ∉ date ∧ 3 ≤ (words (date ++ ['\n'])).length) (divide : Bool) (size : Nat)
    (h0 : 0 < size) (hsize : size < 10 ^ 4) (l : List HrEntry) (hl : l ≠ []) (hn : ∀ e ∈ l, e.Narrow size) :
    ∃ out, readHr divide (writeHr date size l) = some (size, out) ∧
      List.Forall₂ (fun (e : HrEntry) (o : V3 × Elements) => o.1 = e.R ∧ ∀ a < size, ∀ b < size,
        o.2 a b = some (hrValue (if divide then (e.deg : ℚ) else 1) (e.H a b))) (hrOrder l) out := by
  have hperm : (hrOrder l).Perm l := List.mergeSort_perm _ _
  have hn' : ∀ e ∈ hrOrder l, e.Narrow size := fun e he => hn e (hperm.mem_iff.1 he)
  have hne : hrOrder l ≠ [] := fun h => hl (by rw [h] at hperm; exact hperm.symm.eq_nil)
  have hlen : (hrOrder l).length = l.length := hperm.length_eq
  have hlen0 : 0 < l.length := List.length_pos_of_ne_nil hl
  set D : HrEntry → ℚ := fun e => if divide then (e.deg : ℚ) else 1 with hDd
  have hD : ∀ e ∈ hrOrder l, D e ≠ 0 := by
    intro e he
    rw [hDd]
    simp only
    split
    · have := (hn' e he).deg.1
      exact_mod_cast this.ne'
    · exact one_ne_zero
  obtain ⟨out, e1, e2⟩ := readHrBlocks_lines size h0 D (hrOrder l) hD
  refine ⟨out, ?_, e2⟩
  · have hbody : ∀ r : Str, tokens (((hrOrder l).flatMap fun e => (List.range size).flatMap fun b =>
        (List.range size).flatMap fun a => fmt (hrFields e.R a b (e.H a b)) ++ ['\n']) ++ r) =
        ((hrOrder l).flatMap fun e => (List.range size).flatMap fun b =>
          (List.range size).flatMap fun a => [hrWords e.R a b (e.H a b)]) ++ tokens r := by
      refine tokens_flatMap _ _ _ fun e he r => ?_
      refine tokens_flatMap _ _ _ (fun b hb r => ?_) r
      refine tokens_flatMap _ _ _ (fun a ha r => ?_) r
      exact hrLine_tokens e size hsize (hn' e he) a b (List.mem_range.1 ha) (List.mem_range.1 hb) r
    have hbody' := hbody []
    rw [List.append_nil, tokens_nil, List.append_nil] at hbody'
    obtain ⟨L, d1, d2, d3⟩ := tokens_degText ((hrOrder l).map HrEntry.deg) (fun d hd => by
      obtain ⟨e, he, rfl⟩ := List.mem_map.1 hd
      exact ⟨(hn' e he).deg.1.le, (hn' e he).deg.2⟩) 1 [] (by simp) (by simp) (by simpa using hne)
      ((hrOrder l).flatMap fun e => (List.range size).flatMap fun b =>
        (List.range size).flatMap fun a => fmt (hrFields e.R a b (e.H a b)) ++ ['\n'])
    rw [hbody'] at d1
    have d1' : ∀ s : Str, fmt [] ++ s = s := fun s => rfl
    rw [d1'] at d1
    have hsol : ∀ (w : Nat) (z : Int), ∀ f ∈ [fInt 0 w z], Solid f.text := fun w z f hf => by
      rw [List.mem_singleton] at hf
      subst hf
      exact fInt_solid _ _ _
    have htok : tokens (writeHr date size l) = words (date ++ ['\n']) :: [showInt size] :: [showInt l.length] ::
        (L ++ (hrOrder l).flatMap fun e => (List.range size).flatMap fun b =>
          (List.range size).flatMap fun a => [hrWords e.R a b (e.H a b)]) := by
      unfold writeHr
      rw [tokens_line _ hdate.1, tokens_fmt _ (hsol _ _) (by simp), tokens_fmt _ (hsol _ _) (by simp), d1]
      rfl
    have hw : ∃ w, (words (date ++ ['\n']))[2]? = some w := ⟨_, List.getElem?_eq_getElem (by omega)⟩
    obtain ⟨w, hw⟩ := hw
    have hwne : words (date ++ ['\n']) ≠ [] := fun h => by rw [h] at hdate; simp at hdate
    unfold readHr
    rw [htok, cols_cons _ hwne]
    simp only [hw, cols_cons _ (by simp : [showInt (size : Int)] ≠ []),
      cols_cons _ (by simp : [showInt (l.length : Int)] ≠ []), List.getElem?_cons_zero, Option.bind_some, readInt_showInt,
      Int.toNat_natCast]
    rw [readDeg_lines l.length L d3 ((hrOrder l).map HrEntry.deg) (fun d hd => by
      obtain ⟨e, he, rfl⟩ := List.mem_map.1 hd
      exact (hn' e he).deg.1.le) (by simpa using d2) [] (by simp [hlen])]
    simp only [List.nil_append, List.map_map]
    rw [if_neg (by omega)]
    have hds : (if divide = true then (hrOrder l).map ((fun d : Int => (d : ℚ)) ∘ HrEntry.deg)
        else (hrOrder l).map ((fun _ : ℚ => (1 : ℚ)) ∘ ((fun d : Int => (d : ℚ)) ∘ HrEntry.deg))).take l.length =
        (hrOrder l).map D := by
      rw [hDd]
      cases divide <;> simp only [Bool.false_eq_true, if_false, if_true] <;>
        rw [List.take_of_length_le (by rw [List.length_map, hlen])] <;> rfl
    rw [hds, e1]
    rfl

/-- C48: A file written by `write_hrdat` can be read by `read_hrdat`. The lattice vectors are the same (in lexicographical
order), matrix elements are divided by degeneracies if requested and differ by half a unit of the sixth decimal at most.
Restricted to orbital indices, lattice vectors, degeneracies and matrix elements for which columns are separated. -/
theorem C48_partial (date : Str) (hdate : '\n' ∉ date ∧ 3 ≤ (words (date ++ ['\n'])).length) (divide : Bool) (size : Nat)
    (h0 : 0 < size) (hsize : size < 10 ^ 4) (l : List HrEntry) (hl : l ≠ []) (hn : ∀ e ∈ l, e.Narrow size) :
    ∃ l' out, l'.Perm l ∧ l'.Pairwise (fun e e' => lexLe e.R e'.R = true) ∧
      readHr divide (writeHr date size l) = some (size, out) ∧
      List.Forall₂ (fun (e : HrEntry) (o : V3 × Elements) => o.1 = e.R ∧ ∀ a < size, ∀ b < size, ∃ x y : ℚ,
        o.2 a b = some (x / (if divide then (e.deg : ℚ) else 1), y / (if divide then (e.deg : ℚ) else 1)) ∧
        |x - (e.H a b).1| ≤ 1 / 2 / 10 ^ 6 ∧ |y - (e.H a b).2| ≤ 1 / 2 / 10 ^ 6) l' out := by
  obtain ⟨out, h1, h2⟩ := readHr_writeHr date hdate divide size h0 hsize l hl hn
  refine ⟨hrOrder l, out, List.mergeSort_perm _ _, List.pairwise_mergeSort (fun a b c => lexLe_trans a.R b.R c.R) (fun a b => lexLe_total a.R b.R) l,
    h1, h2.imp fun e o h => ⟨h.1, fun a ha b hb => ?_⟩⟩
  exact ⟨roundTo 6 (e.H a b).1, roundTo 6 (e.H a b).2, h.2 a ha b hb, roundTo_near 6 _, roundTo_near 6 _⟩

/-- Date as in `elphmod/el.py` 725. -/
def exampleDate : Str := " written on 16Nov2026 at 12:34:56".toList

example : ('\n' ∉ exampleDate ∧ 3 ≤ (words (exampleDate ++ ['\n'])).length) := by decide

/-- Two lattice vectors. -/
example : ∀ e ∈ [(⟨(0, -1, 0), 2, fun a b => (a + 1 / 3, b)⟩ : HrEntry), ⟨(-5, 0, 0), 1, fun _ _ => (-999, 0)⟩],
    e.Narrow 3 := by
  intro e he
  simp only [List.mem_cons, List.not_mem_nil, or_false] at he
  rcases he with rfl | rfl
  · refine ⟨by norm_num, by norm_num, fun a ha b hb => ?_⟩
    simp only
    have h1 : (a : ℚ) ≤ 3 := by exact_mod_cast ha.le
    have h2 : (b : ℚ) ≤ 3 := by exact_mod_cast hb.le
    have h3 : (0 : ℚ) ≤ a := Nat.cast_nonneg a
    have h4 : (0 : ℚ) ≤ b := Nat.cast_nonneg b
    constructor <;> rw [abs_le] <;> constructor <;> linarith
  · refine ⟨by norm_num, by norm_num, fun a ha b hb => ?_⟩
    norm_num

/-- C48 is violated: a file with a matrix element of -1000 (in the code, e.g., eV) cannot be read. -/
theorem C48_violated : readHr true (writeHr exampleDate 1 [⟨(0, 0, 0), 1, fun _ _ => (-1000, 0)⟩]) = none := by
  unfold writeHr hrOrder
  rw [List.mergeSort_singleton]
  decide +kernel

end Verif.Text
