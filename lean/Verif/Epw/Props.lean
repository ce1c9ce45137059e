import Mathlib.Tactic.Linarith
import Mathlib.Tactic.NormNum
import Verif.Epw.Model
import Verif.Text.Lemmas
import Verif.Xml.Read

/-!
# Property C137: coupling, frequencies and range-separation parameter from the output of EPW
-/

namespace Verif.Epw

open Verif.Text Verif.Mesh

/-! ### Specification -/

/-- The line does not announce a q or k point. -/
def Plain (l : Str) : Prop := ¬ "     iq = ".toList <+: l ∧ ¬ "     ik = ".toList <+: l

/-- The last three columns start with the given coordinates. -/
def Coordinates (l : Str) (x y : ℚ) : Prop :=
  ∃ pre u v w, words l = pre ++ [u, v, w] ∧ readFloat u = some x ∧ readFloat v = some y

/-- The last two columns are the given numbers. -/
def LastTwo (l : Str) (d : ℚ × ℚ) : Prop :=
  ∃ pre u v, words l = pre ++ [u, v] ∧ readFloat u = some d.1 ∧ readFloat v = some d.2

/-- Part of the output for a k point: coordinates, two lines, lines with data (second band, first band, mode), anything else. -/
structure KBlock where
  head : Str
  x : ℚ
  y : ℚ
  first : Str
  second : Str
  line : Nat → Nat → Nat → Str
  data : Nat → Nat → Nat → ℚ × ℚ
  after : List Str

/-- Lines of this part. -/
def KBlock.lines (bands nmodes : Nat) (b : KBlock) : List Str :=
  b.head :: b.first :: b.second ::
    (((List.range bands).flatMap fun j => (List.range bands).flatMap fun i => (List.range nmodes).map fun nu => b.line j i nu) ++ b.after)

/-- The lines contain the data. -/
def KBlock.Ok (bands nmodes : Nat) (b : KBlock) : Prop :=
  "     ik = ".toList <+: b.head ∧ Coordinates b.head b.x b.y ∧ Plain b.first ∧ Plain b.second ∧
  (∀ j < bands, ∀ i < bands, ∀ nu < nmodes, Plain (b.line j i nu) ∧ LastTwo (b.line j i nu) (b.data j i nu)) ∧ ∀ l ∈ b.after, Plain l

/-- Part of the output for a q point: coordinates, anything else, k points. -/
structure QBlock where
  head : Str
  x : ℚ
  y : ℚ
  before : List Str
  ks : List KBlock

/-- Lines of this part. -/
def QBlock.lines (bands nmodes : Nat) (b : QBlock) : List Str := b.head :: (b.before ++ b.ks.flatMap (KBlock.lines bands nmodes))

/-- The lines contain the data. -/
def QBlock.Ok (bands nmodes : Nat) (b : QBlock) : Prop :=
  "     iq = ".toList <+: b.head ∧ Coordinates b.head b.x b.y ∧ (∀ l ∈ b.before, Plain l) ∧ ∀ k ∈ b.ks, k.Ok bands nmodes

/-- Output: anything, q points. -/
structure Output where
  pre : List Str
  qs : List QBlock

/-- Lines of the output. -/
def Output.lines (bands nmodes : Nat) (f : Output) : List Str := f.pre ++ f.qs.flatMap (QBlock.lines bands nmodes)

/-- The lines contain the data. -/
def Output.Ok (bands nmodes : Nat) (f : Output) : Prop := (∀ l ∈ f.pre, Plain l) ∧ ∀ b ∈ f.qs, b.Ok bands nmodes

/-- The crystal coordinate is equivalent to `p / n` up to a tolerance. -/
def OnGrid (n : Nat) (eps x : ℚ) (p : Int) : Prop := 0 ≤ p ∧ p < n ∧ ∃ z : Int, |x * n - (p + z * n : Int)| ≤ eps

/-- The point is equivalent to a mesh point. -/
def OnMesh2 (n : Nat) (eps x y : ℚ) (p : P) : Prop := OnGrid n eps x p.1 ∧ OnGrid n eps y p.2

/-- Coupling (eV or eV to the power of 3/2) from the last two columns. -/
noncomputable def coupling (kind : Kind) (d : ℚ × ℚ) : ℂ :=
  match kind with
  | .modulus => ((d.2 / 1000 : ℚ) : ℂ)
  | .defpot => ((d.2 * Real.sqrt (2 * d.1) * (1 / 1000) ^ (3 / 2 : ℝ) : ℝ) : ℂ)
  | .epf => ((d.1 : ℂ) + d.2 * Complex.I) * (((1 / 1000 : ℝ) ^ (3 / 2 : ℝ) : ℝ) : ℂ)

/-! ### Loops -/

theorem iterate_fuel {σ : Type} (body : Str → List Str → σ → Option (List Str × σ))
    (hb : ∀ l ls s r, body l ls s = some r → r.1.length ≤ ls.length) (n m : Nat) (ls : List Str) (s : σ) (hn : ls.length ≤ n) (hm : ls.length ≤ m) :
    iterate body n ls s = iterate body m ls s := by
  induction n generalizing m ls s with
  | zero =>
    obtain rfl : ls = [] := List.length_eq_zero_iff.1 (by omega)
    cases m <;> rfl
  | succ n ih =>
    cases ls with
    | nil => cases m <;> rfl
    | cons l ls =>
      cases m with
      | zero => simp at hm
      | succ m =>
        rw [iterate, iterate]
        cases h : body l ls s with
        | none => rfl
        | some r =>
          have := hb l ls s r h
          simp only [List.length_cons] at hn hm
          exact ih m r.1 r.2 (by omega) (by omega)

theorem forLines_nil {σ : Type} (body : Str → List Str → σ → Option (List Str × σ)) (s : σ) : forLines body [] s = some s := rfl

theorem forLines_cons {σ : Type} (body : Str → List Str → σ → Option (List Str × σ))
    (hb : ∀ l ls s r, body l ls s = some r → r.1.length ≤ ls.length) (l : Str) (ls : List Str) (s : σ) (r : List Str) (s' : σ)
    (h : body l ls s = some (r, s')) : forLines body (l :: ls) s = forLines body r s' := by
  rw [forLines, List.length_cons, iterate, h]
  exact iterate_fuel body hb _ _ _ _ (hb l ls s (r, s') h) (le_refl _)

theorem values_length {τ : Type} (set : Nat × Nat × Nat → List Str → τ → Option τ) (is : List (Nat × Nat × Nat)) (ls : List Str) (t : τ)
    (r : List Str × τ) (h : values set is ls t = some r) : r.1.length ≤ ls.length := by
  induction is generalizing ls t with
  | nil =>
    rw [values] at h
    rw [← Option.some.inj h]
  | cons i is ih =>
    cases ls with
    | nil => exact absurd h (by simp [values])
    | cons l ls =>
      rw [values] at h
      cases hs : set i (words l) t with
      | none => rw [hs] at h; exact absurd h (by simp)
      | some t' =>
        rw [hs] at h
        have := ih ls t' h
        rw [List.length_cons]
        omega

theorem values_eq {τ : Type} (set : Nat × Nat × Nat → List Str → τ → Option τ) (f : Nat × Nat × Nat → τ → τ) (line : Nat × Nat × Nat → Str)
    (is : List (Nat × Nat × Nat)) (h : ∀ i ∈ is, ∀ t, set i (words (line i)) t = some (f i t)) (rest : List Str) (t : τ) :
    values set is (is.map line ++ rest) t = some (rest, is.foldl (fun t i => f i t) t) := by
  induction is generalizing t with
  | nil => rfl
  | cons i is ih =>
    rw [List.map_cons, List.cons_append, values, h i (by simp)]
    exact ih (fun i hi => h i (by simp [hi])) _

theorem mem_order (bands nmodes : Nat) (p : Nat × Nat × Nat) : p ∈ order bands nmodes ↔ p.1 < bands ∧ p.2.1 < bands ∧ p.2.2 < nmodes := by
  obtain ⟨j, i, nu⟩ := p
  simp only [order, List.mem_flatMap, List.mem_range, List.mem_map, Prod.mk.injEq]
  constructor
  · rintro ⟨a, ha, b, hb, c, hc, rfl, rfl, rfl⟩
    exact ⟨ha, hb, hc⟩
  · rintro ⟨ha, hb, hc⟩
    exact ⟨_, ha, _, hb, _, hc, rfl, rfl, rfl⟩

theorem block_lines (bands nmodes : Nat) (b : KBlock) :
    b.lines bands nmodes = b.head :: b.first :: b.second :: ((order bands nmodes).map (fun p => b.line p.1 p.2.1 p.2.2) ++ b.after) := by
  simp [KBlock.lines, order, List.map_flatMap, Function.comp_def]

theorem column_three (l : Str) (x y : ℚ) (h : Coordinates l x y) : column (words l) 3 = some x ∧ column (words l) 2 = some y := by
  obtain ⟨pre, u, v, w, h1, h2, h3⟩ := h
  rw [h1]
  simp [column, h2, h3]

theorem column_two (l : Str) (d : ℚ × ℚ) (h : LastTwo l d) : column (words l) 2 = some d.1 ∧ column (words l) 1 = some d.2 := by
  obtain ⟨pre, u, v, h1, h2, h3⟩ := h
  rw [h1]
  simp [column, h2, h3]

theorem not_both (l : Str) (h : iqText <+: l) : ¬ ikText <+: l := by
  intro h'
  obtain ⟨s, rfl⟩ := h
  obtain ⟨t, ht⟩ := h'
  have := congrArg (List.take 7) ht
  rw [List.take_append_of_le_length (by decide +kernel), List.take_append_of_le_length (by decide +kernel)] at this
  exact absurd this (by decide +kernel)

theorem pre_iff (p l : Str) : p.isPrefixOf l = true ↔ p <+: l := List.isPrefixOf_iff_prefix

/-! ### Indices -/

theorem index_iff (n : Nat) (hn : 0 < n) (eps : ℚ) (h2 : eps < 1 / 2) (x : ℚ) (p : Int) : index n eps x = some p ↔ OnGrid n eps x p := by
  unfold index OnGrid
  simp only
  constructor
  · intro h
    split at h
    · exact absurd h (by simp)
    · rename_i hle
      obtain rfl := Option.some.inj h
      refine ⟨Int.emod_nonneg _ (by omega), Int.emod_lt_of_pos _ (by omega), roundEven (x * n) / n, ?_⟩
      rw [show roundEven (x * n) % (n : Int) + roundEven (x * n) / n * n = roundEven (x * n) by
        rw [mul_comm (_ / _)]; exact Int.emod_add_mul_ediv _ _]
      exact not_lt.1 hle
  · rintro ⟨h3, h4, z, h5⟩
    have hr : roundEven (x * n) = p + z * n := by
      have g1 := abs_le.1 (roundEven_near (x * n))
      have g2 := abs_lt.1 (lt_of_le_of_lt h5 h2)
      have g3 : (roundEven (x * n) : ℚ) < ((p + z * n + 1 : Int) : ℚ) := by push_cast at g2 ⊢; linarith [g1.2, g2.2, g1.1, g2.1]
      have g4 : ((p + z * n - 1 : Int) : ℚ) < roundEven (x * n) := by push_cast at g2 ⊢; linarith [g1.2, g2.2, g1.1, g2.1]
      have g3 := Int.cast_lt.1 g3
      have g4 := Int.cast_lt.1 g4
      omega
    rw [hr, if_neg (not_lt.2 h5)]
    congr 1
    rw [Int.add_mul_emod_self_right]
    exact Int.emod_eq_of_lt h3 h4

theorem index2_iff (n : Nat) (hn : 0 < n) (eps : ℚ) (h2 : eps < 1 / 2) (x y : ℚ) (p : P) : index2 n eps x y = some p ↔ OnMesh2 n eps x y p := by
  unfold index2 OnMesh2
  rw [← index_iff n hn eps h2, ← index_iff n hn eps h2]
  cases index n eps x <;> cases index n eps y <;> simp [Prod.ext_iff]

/-! ### `read_EPW_output` -/

section Output

variable (q : List P) (nq nmodes nk bands : Nat) (eps : ℚ) (kind : Kind)

theorem output_length (l : Str) (ls : List Str) (s : State) (r : List Str × State)
    (h : outputBody q nq nmodes nk bands eps kind l ls s = some r) : r.1.length ≤ ls.length := by
  unfold outputBody at h
  split at h
  · split at h
    · rw [← Option.some.inj h]
      simp
    · cases h1 : column (words l) 3 with
      | none => rw [h1] at h; exact absurd h (by simp)
      | some x =>
        cases h2 : column (words l) 2 with
        | none => rw [h1, h2] at h; exact absurd h (by simp)
        | some y =>
          rw [h1, h2] at h
          simp only [Option.bind_eq_bind, Option.bind_some] at h
          split at h
          · rw [← Option.some.inj h]
          · split at h <;> rw [← Option.some.inj h]
  · split at h
    · rw [← Option.some.inj h]
    · split at h
      · cases h1 : column (words l) 3 with
        | none => rw [h1] at h; exact absurd h (by simp)
        | some x =>
          cases h2 : column (words l) 2 with
          | none => rw [h1, h2] at h; exact absurd h (by simp)
          | some y =>
            rw [h1, h2] at h
            simp only [Option.bind_eq_bind, Option.bind_some] at h
            split at h
            · rw [← Option.some.inj h]
            · split at h
              · rename_i data
                obtain ⟨r', h3, h4⟩ := Option.bind_eq_some_iff.1 h
                have := values_length _ _ _ _ _ h3
                rw [← Option.some.inj h4]
                simp only [List.length_cons]
                omega
              · exact absurd h (by simp)
      · rw [← Option.some.inj h]

/-- Value before the conversion of units. -/
noncomputable def raw (d : ℚ × ℚ) : ℂ :=
  match kind with
  | .epf => ⟨d.1, d.2⟩
  | .defpot => ((d.2 : ℝ) * Real.sqrt (2 * d.1) : ℝ)
  | .modulus => ((d.2 : ℝ) : ℂ)

theorem value_eq (l : Str) (d : ℚ × ℚ) (h : LastTwo l d) : kind.value (words l) = some (raw kind d) := by
  obtain ⟨h1, h2⟩ := column_two l d h
  cases kind <;> simp [Kind.value, raw, h1, h2]

theorem raw_unit (d : ℚ × ℚ) : raw kind d * (kind.unit : ℂ) = coupling kind d := by
  have h1 : (1e-3 : ℝ) = 1 / 1000 := by norm_num
  have h2 : (1.5 : ℝ) = 3 / 2 := by norm_num
  cases kind with
  | modulus =>
    simp only [raw, Kind.unit, coupling, h1]
    push_cast
    ring
  | defpot =>
    simp only [raw, Kind.unit, coupling, h1, h2]
    push_cast
    ring
  | epf =>
    simp only [raw, Kind.unit, coupling, h1, h2]
    congr 1
    apply Complex.ext <;> simp

/-- Effect of a k point. -/
noncomputable def kEff (iq : Nat) (t : Table) (b : KBlock) : Table :=
  match index2 nk eps b.x b.y with
  | none => t
  | some k => fun iq' nu k' i j => if iq' = iq ∧ k' = k ∧ nu < nmodes ∧ i < bands ∧ j < bands then some (raw kind (b.data j i nu)) else t iq' nu k' i j

theorem sets (iq : Nat) (k : P) (v : Nat × Nat × Nat → ℂ) (is : List (Nat × Nat × Nat)) (t : Table) (iq' nu : Nat) (k' : P) (i j : Nat) :
    is.foldl (fun t p => Table.set t iq p.2.2 k p.2.1 p.1 (v p)) t iq' nu k' i j =
      if iq' = iq ∧ k' = k ∧ (j, i, nu) ∈ is then some (v (j, i, nu)) else t iq' nu k' i j := by
  induction is generalizing t with
  | nil => simp
  | cons p is ih =>
    rw [List.foldl_cons, ih]
    by_cases hm : (j, i, nu) ∈ is
    · simp only [List.mem_cons, hm, or_true, and_true]
      split
      · rfl
      · rename_i hne
        unfold Table.set
        rw [if_neg]
        rintro ⟨h1, -, h2, -⟩
        exact hne ⟨h1, h2⟩
    · obtain ⟨a, b, c⟩ := p
      simp only [List.mem_cons, hm, or_false, and_false, if_false, Table.set, Prod.mk.injEq]
      by_cases h : iq' = iq ∧ nu = c ∧ k' = k ∧ i = b ∧ j = a
      · obtain ⟨rfl, rfl, rfl, rfl, rfl⟩ := h
        simp
      · rw [if_neg h, if_neg]
        rintro ⟨h1, h2, h3, h4, h5⟩
        exact h ⟨h1, h5, h2, h4, h3⟩

theorem output_plain (pre rest : List Str) (s : State) (h : ∀ l ∈ pre, Plain l) :
    forLines (outputBody q nq nmodes nk bands eps kind) (pre ++ rest) s = forLines (outputBody q nq nmodes nk bands eps kind) rest s := by
  induction pre with
  | nil => rfl
  | cons l pre ih =>
    rw [List.cons_append, forLines_cons _ (output_length q nq nmodes nk bands eps kind) _ _ _ (pre ++ rest) s, ih fun l hl => h l (by simp [hl])]
    obtain ⟨h1, h2⟩ := h l (by simp)
    unfold outputBody
    rw [if_neg (by rw [pre_iff]; exact h1)]
    cases s.iq with
    | none => rfl
    | some n =>
      simp only
      rw [if_neg (by rw [pre_iff]; exact h2)]

theorem output_none (ks : List KBlock) (hk : ∀ b ∈ ks, b.Ok bands nmodes) (rest : List Str) (s : State) (hs : s.iq = none) :
    forLines (outputBody q nq nmodes nk bands eps kind) (ks.flatMap (KBlock.lines bands nmodes) ++ rest) s =
      forLines (outputBody q nq nmodes nk bands eps kind) rest s := by
  induction ks with
  | nil => rfl
  | cons b ks ih =>
    obtain ⟨h1, h2, h3, h4, h5, h6⟩ := hk b (by simp)
    have hbody : ∀ r, outputBody q nq nmodes nk bands eps kind b.head r s = some (r, s) := by
      intro r
      unfold outputBody
      rw [if_neg (by rw [pre_iff]; intro h; exact not_both _ h h1), hs]
    rw [List.flatMap_cons, List.append_assoc, block_lines, List.cons_append,
      forLines_cons _ (output_length q nq nmodes nk bands eps kind) _ _ _ _ _ (hbody _), output_plain _ _ _ _ _ _ _ _ _ _ ?_]
    · exact ih fun b hb => hk b (by simp [hb])
    · intro l hl
      simp only [List.mem_cons, List.mem_append, List.mem_map] at hl
      rcases hl with rfl | rfl | ⟨p, hp, rfl⟩ | hl
      · exact h3
      · exact h4
      · rw [mem_order] at hp
        exact (h5 _ hp.1 _ hp.2.1 _ hp.2.2).1
      · exact h6 l hl

theorem output_some (iq : Nat) (ks : List KBlock) (hk : ∀ b ∈ ks, b.Ok bands nmodes) (rest : List Str) (s : State) (hs : s.iq = some iq) :
    forLines (outputBody q nq nmodes nk bands eps kind) (ks.flatMap (KBlock.lines bands nmodes) ++ rest) s =
      forLines (outputBody q nq nmodes nk bands eps kind) rest { s with table := ks.foldl (kEff nmodes nk bands eps kind iq) s.table } := by
  induction ks generalizing s with
  | nil => rfl
  | cons b ks ih =>
    obtain ⟨h1, h2, h3, h4, h5, h6⟩ := hk b (by simp)
    obtain ⟨h7, h8⟩ := column_three _ _ _ h2
    have hplain : ∀ l ∈ (order bands nmodes).map (fun p => b.line p.1 p.2.1 p.2.2) ++ b.after, Plain l := by
      intro l hl
      simp only [List.mem_append, List.mem_map] at hl
      rcases hl with ⟨p, hp, rfl⟩ | hl
      · rw [mem_order] at hp
        exact (h5 _ hp.1 _ hp.2.1 _ hp.2.2).1
      · exact h6 l hl
    have hpre : ¬ iqText.isPrefixOf b.head = true := by rw [pre_iff]; intro h; exact not_both _ h h1
    have hpre' : ikText.isPrefixOf b.head = true := by rw [pre_iff]; exact h1
    have ih := ih (fun b hb => hk b (by simp [hb]))
    rw [List.flatMap_cons, List.append_assoc, block_lines, List.cons_append, List.cons_append, List.cons_append, List.append_assoc, List.foldl_cons]
    cases hi : index2 nk eps b.x b.y with
    | none =>
      rw [forLines_cons _ (output_length q nq nmodes nk bands eps kind) _ _ _ _ s]
      · have hpl : ∀ l ∈ b.first :: b.second :: ((order bands nmodes).map (fun p => b.line p.1 p.2.1 p.2.2) ++ b.after), Plain l := by
          intro l hl
          simp only [List.mem_cons] at hl
          rcases hl with rfl | rfl | hl
          · exact h3
          · exact h4
          · exact hplain l hl
        have := output_plain q nq nmodes nk bands eps kind _ (ks.flatMap (KBlock.lines bands nmodes) ++ rest) s hpl
        rw [List.cons_append, List.cons_append, List.append_assoc] at this
        rw [this, ih s hs, kEff, hi]
      · unfold outputBody
        rw [if_neg hpre, hs]
        simp only
        rw [if_pos hpre', h7, h8]
        simp only [Option.bind_eq_bind, Option.bind_some, hi]
    | some k =>
      rw [forLines_cons _ (output_length q nq nmodes nk bands eps kind) _ _ _ (b.after ++ (ks.flatMap (KBlock.lines bands nmodes) ++ rest))
        { s with table := kEff nmodes nk bands eps kind iq s.table b }]
      · rw [output_plain q nq nmodes nk bands eps kind _ _ _ h6]
        exact ih { s with table := kEff nmodes nk bands eps kind iq s.table b } hs
      · unfold outputBody
        rw [if_neg hpre, hs]
        simp only
        rw [if_pos hpre', h7, h8]
        simp only [Option.bind_eq_bind, Option.bind_some, hi]
        rw [values_eq _ (fun p t => Table.set t iq p.2.2 k p.2.1 p.1 (raw kind (b.data p.1 p.2.1 p.2.2))) _ _ (fun p hp t => by
          rw [mem_order] at hp
          rw [value_eq kind _ _ (h5 _ hp.1 _ hp.2.1 _ hp.2.2).2]
          rfl)]
        have heff : (order bands nmodes).foldl (fun t p => Table.set t iq p.2.2 k p.2.1 p.1 (raw kind (b.data p.1 p.2.1 p.2.2))) s.table =
            kEff nmodes nk bands eps kind iq s.table b := by
          funext iq' nu k' i j
          rw [sets iq k fun p => raw kind (b.data p.1 p.2.1 p.2.2), kEff, hi]
          exact if_congr ⟨fun ⟨a, b, c⟩ => ⟨a, b, ((mem_order _ _ _).1 c).2.2, ((mem_order _ _ _).1 c).2.1, ((mem_order _ _ _).1 c).1⟩,
            fun ⟨a, b, c, d, e⟩ => ⟨a, b, (mem_order _ _ _).2 ⟨e, d, c⟩⟩⟩ rfl rfl
        rw [Option.bind_some, heff]

/-- Effect of a q point. -/
noncomputable def qEff (s : List P × Table) (b : QBlock) : List P × Table :=
  match index2 nq eps b.x b.y with
  | none => s
  | some p => if p ∈ s.1 then (s.1.filter (· ≠ p), b.ks.foldl (kEff nmodes nk bands eps kind (q.idxOf p)) s.2) else s

theorem qEff_nil (bs : List QBlock) (t : Table) : bs.foldl (qEff q nq nmodes nk bands eps kind) ([], t) = ([], t) := by
  induction bs with
  | nil => rfl
  | cons b bs ih =>
    rw [List.foldl_cons]
    have : qEff q nq nmodes nk bands eps kind ([], t) b = ([], t) := by
      unfold qEff
      cases index2 nq eps b.x b.y <;> simp
    rw [this, ih]

theorem output_blocks (bs : List QBlock) (hb : ∀ b ∈ bs, b.Ok bands nmodes) (s : State) :
    ∃ s', forLines (outputBody q nq nmodes nk bands eps kind) (bs.flatMap (QBlock.lines bands nmodes)) s = some s' ∧
      s'.table = (bs.foldl (qEff q nq nmodes nk bands eps kind) (s.left, s.table)).2 := by
  induction bs generalizing s with
  | nil => exact ⟨s, rfl, rfl⟩
  | cons b bs ih =>
    obtain ⟨h1, h2, h3, h4⟩ := hb b (by simp)
    obtain ⟨h7, h8⟩ := column_three _ _ _ h2
    have hpre : iqText.isPrefixOf b.head = true := by rw [pre_iff]; exact h1
    have ih := ih fun b hb' => hb b (by simp [hb'])
    rw [List.flatMap_cons, QBlock.lines, List.cons_append, List.append_assoc, List.foldl_cons]
    by_cases hl : s.left = []
    · refine ⟨s, ?_, ?_⟩
      · rw [forLines_cons _ (output_length q nq nmodes nk bands eps kind) _ _ _ [] s]
        · rfl
        · unfold outputBody
          rw [if_pos hpre, if_pos hl]
      · rw [hl, ← List.foldl_cons (f := qEff q nq nmodes nk bands eps kind) (l := bs), qEff_nil]
    · have body : ∀ r, outputBody q nq nmodes nk bands eps kind b.head r s = match index2 nq eps b.x b.y with
          | none => some (r, { s with iq := none })
          | some p => if p ∈ s.left then some (r, { s with iq := some (q.idxOf p), left := s.left.filter (· ≠ p) })
            else some (r, { s with iq := none }) := by
        intro r
        unfold outputBody
        rw [if_pos hpre, if_neg hl, h7, h8]
        rfl
      have skip : (∀ r, outputBody q nq nmodes nk bands eps kind b.head r s = some (r, { s with iq := none })) →
          qEff q nq nmodes nk bands eps kind (s.left, s.table) b = (s.left, s.table) →
          ∃ s', forLines (outputBody q nq nmodes nk bands eps kind) (b.head :: (b.before ++ (b.ks.flatMap (KBlock.lines bands nmodes) ++
            bs.flatMap (QBlock.lines bands nmodes)))) s = some s' ∧ s'.table = (bs.foldl (qEff q nq nmodes nk bands eps kind)
            (qEff q nq nmodes nk bands eps kind (s.left, s.table) b)).2 := by
        intro g1 g2
        rw [forLines_cons _ (output_length q nq nmodes nk bands eps kind) _ _ _ _ _ (g1 _), output_plain _ _ _ _ _ _ _ _ _ _ h3,
          output_none _ _ _ _ _ _ _ _ h4 _ _ rfl, g2]
        exact ih _
      cases hi : index2 nq eps b.x b.y with
      | none =>
        apply skip
        · intro r
          rw [body, hi]
        · rw [qEff, hi]
      | some p =>
        by_cases hp : p ∈ s.left
        · have hbody : ∀ r, outputBody q nq nmodes nk bands eps kind b.head r s =
              some (r, { s with iq := some (q.idxOf p), left := s.left.filter (· ≠ p) }) := by
            intro r
            rw [body, hi]
            exact if_pos hp
          rw [forLines_cons _ (output_length q nq nmodes nk bands eps kind) _ _ _ _ _ (hbody _), output_plain _ _ _ _ _ _ _ _ _ _ h3,
            output_some _ _ _ _ _ _ _ _ _ h4 _ _ rfl]
          have : qEff q nq nmodes nk bands eps kind (s.left, s.table) b =
              (s.left.filter (· ≠ p), b.ks.foldl (kEff nmodes nk bands eps kind (q.idxOf p)) s.table) := by
            rw [qEff, hi]
            exact if_pos hp
          rw [this]
          exact ih _
        · apply skip
          · intro r
            rw [body, hi]
            exact if_neg hp
          · rw [qEff, hi]
            exact if_neg hp

theorem kEff_other (iq n : Nat) (hn : n ≠ iq) (ks : List KBlock) (t : Table) : ks.foldl (kEff nmodes nk bands eps kind iq) t n = t n := by
  induction ks generalizing t with
  | nil => rfl
  | cons b ks ih =>
    rw [List.foldl_cons, ih]
    unfold kEff
    cases index2 nk eps b.x b.y with
    | none => rfl
    | some k =>
      funext nu k i j
      simp only
      rw [if_neg fun h => hn h.1]

/-- Effect of all q points. -/
theorem blocks_at (bs : List QBlock) (left : List P) (hleft : ∀ p ∈ left, p ∈ q) (t : Table) (n : Nat) (hn : n < q.length) (hd : q.idxOf q[n] = n) :
    (bs.foldl (qEff q nq nmodes nk bands eps kind) (left, t)).2 n =
      if q[n] ∈ left then
        match bs.find? fun b => index2 nq eps b.x b.y = some q[n] with
        | some b => b.ks.foldl (kEff nmodes nk bands eps kind n) t n
        | none => t n
      else t n := by
  induction bs generalizing left t with
  | nil => simp
  | cons b bs ih =>
    rw [List.foldl_cons]
    cases hi : index2 nq eps b.x b.y with
    | none =>
      rw [show qEff q nq nmodes nk bands eps kind (left, t) b = (left, t) by rw [qEff, hi], show (List.find? (fun b => decide (index2 nq eps b.x b.y = some q[n])) (b :: bs)) =
        List.find? (fun b => decide (index2 nq eps b.x b.y = some q[n])) bs by rw [List.find?_cons, hi]; rfl]
      exact ih left hleft t
    | some p =>
      by_cases hp : p ∈ left
      · rw [show qEff q nq nmodes nk bands eps kind (left, t) b = (left.filter (· ≠ p), b.ks.foldl (kEff nmodes nk bands eps kind (q.idxOf p)) t) by
          rw [qEff, hi]; exact if_pos hp, ih _ fun p' hp' => hleft p' (List.mem_of_mem_filter hp')]
        by_cases hq : q[n] = p
        · rw [if_neg (by simp [hq]), if_pos (by rw [hq]; exact hp), List.find?_cons, hi]
          simp only [hq, decide_true]
          rw [← hq, hd]
        · have hne : n ≠ q.idxOf p := by
            rintro rfl
            exact hq (List.getElem_idxOf hn)
          rw [List.find?_cons, hi]
          have hdec : decide (some p = some q[n]) = false := by simpa using fun h : p = q[n] => hq h.symm
          rw [hdec]
          simp only
          have hmem : (q[n] ∈ left.filter (· ≠ p)) = (q[n] ∈ left) := by simp [hq]
          simp only [hmem]
          split
          · split
            · rename_i b' _
              have key : ∀ (ks : List KBlock) (t t' : Table), t n = t' n → ks.foldl (kEff nmodes nk bands eps kind n) t n =
                  ks.foldl (kEff nmodes nk bands eps kind n) t' n := by
                intro ks
                induction ks with
                | nil => intro t t' h; exact h
                | cons c ks ih =>
                  intro t t' h
                  rw [List.foldl_cons, List.foldl_cons]
                  apply ih
                  unfold kEff
                  cases index2 nk eps c.x c.y with
                  | none => exact h
                  | some k =>
                    funext nu k i j
                    simp only
                    rw [h]
              exact key _ _ _ (kEff_other _ _ _ _ _ _ _ hne _ _)
            · exact kEff_other _ _ _ _ _ _ _ hne _ _
          · exact kEff_other _ _ _ _ _ _ _ hne _ _
      · rw [show qEff q nq nmodes nk bands eps kind (left, t) b = (left, t) by rw [qEff, hi]; exact if_neg hp, ih left hleft t]
        by_cases hq : q[n] = p
        · rw [if_neg (by rw [hq]; exact hp), if_neg (by rw [hq]; exact hp)]
        · rw [List.find?_cons, hi]
          have hdec : decide (some p = some q[n]) = false := by simpa using fun h : p = q[n] => hq h.symm
          rw [hdec]

/-- Effect of all k points. -/
theorem ks_at (n : Nat) (ks : List KBlock) (t : Table) (nu : Nat) (k : P) (i j : Nat) (h : nu < nmodes ∧ i < bands ∧ j < bands) :
    ks.foldl (kEff nmodes nk bands eps kind n) t n nu k i j =
      match ks.reverse.find? fun b => index2 nk eps b.x b.y = some k with
      | some b => some (raw kind (b.data j i nu))
      | none => t n nu k i j := by
  induction ks generalizing t with
  | nil => rfl
  | cons b ks ih =>
    rw [List.foldl_cons, ih, List.reverse_cons, List.find?_append]
    cases ks.reverse.find? fun b => index2 nk eps b.x b.y = some k with
    | some b' => rfl
    | none =>
      rw [List.find?_cons, List.find?_nil, Option.none_or]
      unfold kEff
      cases hi : index2 nk eps b.x b.y with
      | none => rfl
      | some k' =>
        by_cases hk : k = k'
        · simp [hk, h]
        · have hdec : decide (some k' = some k) = false := by simpa using fun h : k' = k => hk h.symm
          rw [hdec]
          simp only
          rw [if_neg fun h => hk h.2.1]

end Output

/-- **C137**: `read_EPW_output` returns for each q point the values of its first occurrence in the output, for each k point (up to lattice
vectors and a tolerance), mode and pair of bands, converted to eV; points beside the mesh and other q points are ignored. -/
theorem C137_partial (f : Output) (q : List P) (hq : q.Nodup) (nq nmodes nk bands : Nat) (eps : ℚ) (kind : Kind) (hnq : 0 < nq) (hnk : 0 < nk)
    (heps : eps < 1 / 2) (hf : f.Ok bands nmodes) :
    ∃ T, readOutput (f.lines bands nmodes) q nq nmodes nk bands eps kind = some T ∧ ∀ n, (hn : n < q.length) →
      (∀ pre b post, f.qs = pre ++ b :: post → OnMesh2 nq eps b.x b.y q[n] → (∀ b' ∈ pre, ¬ OnMesh2 nq eps b'.x b'.y q[n]) →
        ∀ k, (∀ kpre kb kpost, b.ks = kpre ++ kb :: kpost → OnMesh2 nk eps kb.x kb.y k → (∀ kb' ∈ kpost, ¬ OnMesh2 nk eps kb'.x kb'.y k) →
          ∀ nu < nmodes, ∀ i < bands, ∀ j < bands, T n nu k i j = some (coupling kind (kb.data j i nu))) ∧
        ((∀ kb ∈ b.ks, ¬ OnMesh2 nk eps kb.x kb.y k) → ∀ nu < nmodes, ∀ i < bands, ∀ j < bands, T n nu k i j = none)) ∧
      ((∀ b ∈ f.qs, ¬ OnMesh2 nq eps b.x b.y q[n]) → ∀ nu k i j, T n nu k i j = none) := by
  obtain ⟨s', h1, h2⟩ := output_blocks q nq nmodes nk bands eps kind f.qs hf.2 ⟨q, none, fun _ _ _ _ _ => none⟩
  refine ⟨fun iq nu k i j => (s'.table iq nu k i j).map (· * (kind.unit : ℂ)), ?_, fun n hn => ⟨?_, ?_⟩⟩
  · rw [readOutput, Output.lines, output_plain _ _ _ _ _ _ _ _ _ _ hf.1, h1]
    rfl
  · intro pre b post hqs hb hpre k
    have hfind : (f.qs.find? fun b => decide (index2 nq eps b.x b.y = some q[n])) = some b := by
      rw [hqs, List.find?_append, List.find?_eq_none.2, Option.none_or, List.find?_cons_of_pos]
      · rw [decide_eq_true_iff, index2_iff nq hnq eps heps]
        exact hb
      · intro b' hb'
        rw [decide_eq_true_iff, index2_iff nq hnq eps heps]
        exact hpre b' hb'
    have hat := blocks_at q nq nmodes nk bands eps kind f.qs q (fun _ h => h) (fun _ _ _ _ _ => none) n hn (hq.idxOf_getElem n hn)
    rw [if_pos (List.getElem_mem hn), hfind] at hat
    simp only at hat h2
    rw [← h2] at hat
    constructor
    · intro kpre kb kpost hks hkb hkpost nu hnu i hi j hj
      show (s'.table n nu k i j).map _ = _
      rw [hat, ks_at nmodes nk bands eps kind n b.ks _ nu k i j ⟨hnu, hi, hj⟩]
      have hkfind : (b.ks.reverse.find? fun b => decide (index2 nk eps b.x b.y = some k)) = some kb := by
        rw [hks, List.reverse_append, List.reverse_cons, List.find?_append, List.find?_append, List.find?_eq_none.2, Option.none_or,
          List.find?_cons_of_pos]
        · rfl
        · rw [decide_eq_true_iff, index2_iff nk hnk eps heps]
          exact hkb
        · intro b' hb'
          rw [decide_eq_true_iff, index2_iff nk hnk eps heps]
          exact hkpost b' (List.mem_reverse.1 hb')
      rw [hkfind]
      simp only [Option.map_some, raw_unit]
    · intro hks nu hnu i hi j hj
      show (s'.table n nu k i j).map _ = _
      rw [hat, ks_at nmodes nk bands eps kind n b.ks _ nu k i j ⟨hnu, hi, hj⟩, List.find?_eq_none.2]
      · rfl
      · intro b' hb'
        rw [decide_eq_true_iff, index2_iff nk hnk eps heps]
        exact hks b' (List.mem_reverse.1 hb')
  · intro hqs nu k i j
    have hat := blocks_at q nq nmodes nk bands eps kind f.qs q (fun _ h => h) (fun _ _ _ _ _ => none) n hn (hq.idxOf_getElem n hn)
    rw [if_pos (List.getElem_mem hn), List.find?_eq_none.2] at hat
    · simp only at hat h2
      rw [← h2] at hat
      show (s'.table n nu k i j).map _ = _
      rw [hat]
      rfl
    · intro b' hb'
      rw [decide_eq_true_iff, index2_iff nq hnq eps heps]
      exact hqs b' hb'

/-- **C137** (violation): if a q point is listed again, all values are NaN the second time. -/
theorem C137_duplicate_violated (f : Output) (q : List P) (nq nmodes nk bands : Nat) (eps : ℚ) (kind : Kind) (hf : f.Ok bands nmodes)
    (m n : Nat) (hmn : m < n) (hn : n < q.length) (hd : q[m] = q[n]) :
    ∃ T, readOutput (f.lines bands nmodes) q nq nmodes nk bands eps kind = some T ∧ ∀ nu k i j, T n nu k i j = none := by
  obtain ⟨s', h1, h2⟩ := output_blocks q nq nmodes nk bands eps kind f.qs hf.2 ⟨q, none, fun _ _ _ _ _ => none⟩
  refine ⟨fun iq nu k i j => (s'.table iq nu k i j).map (· * (kind.unit : ℂ)), ?_, fun nu k i j => ?_⟩
  · rw [readOutput, Output.lines, output_plain _ _ _ _ _ _ _ _ _ _ hf.1, h1]
    rfl
  · show (s'.table n nu k i j).map _ = _
    have key : ∀ (bs : List QBlock) (left : List P) (t : Table), (∀ p ∈ left, p ∈ q) →
        (bs.foldl (qEff q nq nmodes nk bands eps kind) (left, t)).2 n = t n := by
      intro bs
      induction bs with
      | nil => intro left t _; rfl
      | cons b bs ih =>
        intro left t hleft
        rw [List.foldl_cons]
        cases hi : index2 nq eps b.x b.y with
        | none => rw [show qEff q nq nmodes nk bands eps kind (left, t) b = (left, t) by rw [qEff, hi], ih left t hleft]
        | some p =>
          by_cases hp : p ∈ left
          · rw [show qEff q nq nmodes nk bands eps kind (left, t) b =
                (left.filter (· ≠ p), b.ks.foldl (kEff nmodes nk bands eps kind (q.idxOf p)) t) by rw [qEff, hi]; exact if_pos hp,
              ih _ _ fun p' hp' => hleft p' (List.mem_of_mem_filter hp')]
            apply kEff_other
            rintro rfl
            have hle : q.idxOf p ≤ m := by
              have : q[q.idxOf p] = p := List.getElem_idxOf hn
              rw [this] at hd
              by_contra hlt
              have := List.not_of_lt_findIdx (p := (· == p)) (xs := q) (i := m) (by simpa [List.idxOf] using hmn)
              rw [hd] at this
              simp at this
            omega
          · rw [show qEff q nq nmodes nk bands eps kind (left, t) b = (left, t) by rw [qEff, hi]; exact if_neg hp, ih left t hleft]
    rw [h2, key _ _ _ fun _ h => h]
    rfl

/-- **C137** (violation): for q points given as equivalent points outside the first zone of the mesh, all values are NaN. -/
theorem C137_range_violated (f : Output) (q : List P) (hq : q.Nodup) (nq nmodes nk bands : Nat) (eps : ℚ) (kind : Kind) (hnq : 0 < nq)
    (hnk : 0 < nk) (heps : eps < 1 / 2) (hf : f.Ok bands nmodes) (n : Nat) (hn : n < q.length)
    (hr : q[n].1 < 0 ∨ nq ≤ q[n].1 ∨ q[n].2 < 0 ∨ nq ≤ q[n].2) :
    ∃ T, readOutput (f.lines bands nmodes) q nq nmodes nk bands eps kind = some T ∧ ∀ nu k i j, T n nu k i j = none := by
  obtain ⟨T, h1, h2⟩ := C137_partial f q hq nq nmodes nk bands eps kind hnq hnk heps hf
  refine ⟨T, h1, (h2 n hn).2 ?_⟩
  rintro b - ⟨⟨a1, a2, -⟩, b1, b2, -⟩
  omega

/-! ### `read_prtgkk` -/

section Prtgkk

variable (nq nmodes nk nbnd : Nat)

theorem prt_length (l : Str) (ls : List Str) (s : Counters) (r : List Str × Counters) (h : prtgkkBody nq nmodes nk nbnd l ls s = some r) :
    r.1.length ≤ ls.length := by
  unfold prtgkkBody at h
  simp only at h
  split at h
  · split at h
    · have := values_length _ _ _ _ _ h
      simp only [List.length_cons]
      omega
    · exact absurd h (by simp)
  · rw [← Option.some.inj h]

theorem prt_plain (pre rest : List Str) (s : Counters) (h : ∀ l ∈ pre, Plain l) :
    forLines (prtgkkBody nq nmodes nk nbnd) (pre ++ rest) s = forLines (prtgkkBody nq nmodes nk nbnd) rest s := by
  induction pre with
  | nil => rfl
  | cons l pre ih =>
    have hbody : prtgkkBody nq nmodes nk nbnd l (pre ++ rest) s = some (pre ++ rest, s) := by
      obtain ⟨h1, h2⟩ := h l (by simp)
      unfold prtgkkBody
      rw [if_neg (by rw [pre_iff]; exact h2), if_neg (by rw [pre_iff]; exact h1)]
    rw [List.cons_append, forLines_cons _ (prt_length nq nmodes nk nbnd) _ _ _ _ _ hbody, ih fun l hl => h l (by simp [hl])]

/-- Effect of a line. -/
def put (iq ik : Nat) (x y : ℚ) (p : Nat × Nat × Nat) (s : Counters) : Counters :=
  let w := fun a b => if a = iq ∧ b = p.2.2 then some x else s.w a b
  let g := fun a b c d e => if a = iq ∧ b = p.2.2 ∧ c = ik ∧ d = p.2.1 ∧ e = p.1 then some y else s.g a b c d e
  { s with w := w, g := g }

theorem puts (iq ik : Nat) (omega : Nat → ℚ) (v : Nat × Nat × Nat → ℚ × ℚ) (is : List (Nat × Nat × Nat)) (hv : ∀ p ∈ is, (v p).1 = omega p.2.2)
    (s : Counters) (s' : Counters) (hs : s' = is.foldl (fun s p => put iq ik (v p).1 (v p).2 p s) s) :
    s'.iq = s.iq ∧ s'.ik = s.ik ∧ (∀ a nu c i j, (a ≠ iq ∨ c ≠ ik) → s'.g a nu c i j = s.g a nu c i j) ∧ (∀ a nu, a ≠ iq → s'.w a nu = s.w a nu) ∧
    (∀ nu i j, (j, i, nu) ∈ is → s'.g iq nu ik i j = some (v (j, i, nu)).2) ∧ (∀ nu, s.w iq nu = some (omega nu) → s'.w iq nu = some (omega nu)) ∧
    (∀ nu i j, (j, i, nu) ∈ is → s'.w iq nu = some (omega nu)) ∧
    ∀ nu i j, s.g iq nu ik i j = some (v (j, i, nu)).2 → s'.g iq nu ik i j = some (v (j, i, nu)).2 := by
  induction is generalizing s with
  | nil =>
    subst hs
    exact ⟨rfl, rfl, fun _ _ _ _ _ _ => rfl, fun _ _ _ => rfl, fun _ _ _ h => absurd h (by simp), fun _ h => h, fun _ _ _ h => absurd h (by simp),
      fun _ _ _ h => h⟩
  | cons p is ih =>
    rw [List.foldl_cons] at hs
    have hp := hv p (by simp)
    obtain ⟨h1, h2, h3, h4, h5, h6, h7, h8⟩ := ih (fun p hp => hv p (by simp [hp])) _ hs
    refine ⟨h1, h2, fun a nu c i j h => ?_, fun a nu h => ?_, fun nu i j h => ?_, fun nu h => ?_, fun nu i j h => ?_, fun nu i j h => ?_⟩
    · rw [h3 a nu c i j h]
      show (if _ then _ else _) = _
      rw [if_neg]
      rintro ⟨rfl, -, rfl, -⟩
      simp at h
    · rw [h4 a nu h]
      show (if _ then _ else _) = _
      rw [if_neg fun h' => h h'.1]
    · rcases List.mem_cons.1 h with rfl | h
      · apply h8
        show (if _ then _ else _) = _
        simp
      · exact h5 nu i j h
    · apply h6
      show (if _ then _ else _) = _
      split
      · rename_i h'
        rw [hp, h'.2]
      · exact h
    · rcases List.mem_cons.1 h with rfl | h
      · apply h6
        show (if _ then _ else _) = _
        simpa using hp
      · exact h7 nu i j h
    · apply h8
      show (if _ then _ else _) = _
      split
      · rename_i h'
        obtain ⟨-, rfl, -, rfl, rfl⟩ := h'
        rfl
      · exact h

theorem prt_ks (iq : Nat) (hiq : iq < nq) (omega : Nat → ℚ) (ks : List KBlock) (hk : ∀ b ∈ ks, b.Ok nbnd nmodes)
    (hw : ∀ b ∈ ks, ∀ j < nbnd, ∀ i < nbnd, ∀ nu < nmodes, (b.data j i nu).1 = omega nu) (rest : List Str) (s : Counters) (ik : Nat)
    (hs : s.iq = iq + 1) (hik : s.ik = some ik) (hl : ik + ks.length ≤ nk) :
    ∃ s', forLines (prtgkkBody nq nmodes nk nbnd) (ks.flatMap (KBlock.lines nbnd nmodes) ++ rest) s =
      forLines (prtgkkBody nq nmodes nk nbnd) rest s' ∧ s'.iq = s.iq ∧
      (∀ m b, ks[m]? = some b → ∀ j < nbnd, ∀ i < nbnd, ∀ nu < nmodes, s'.g iq nu (ik + m) i j = some (b.data j i nu).2 ∧ s'.w iq nu = some (omega nu)) ∧
      (∀ a nu c i j, (a ≠ iq ∨ c < ik) → s'.g a nu c i j = s.g a nu c i j) ∧ (∀ a nu, a ≠ iq → s'.w a nu = s.w a nu) ∧
      ∀ nu, s.w iq nu = some (omega nu) → s'.w iq nu = some (omega nu) := by
  induction ks generalizing s ik with
  | nil => exact ⟨s, rfl, rfl, fun m b h => absurd h (by simp), fun _ _ _ _ _ _ => rfl, fun _ _ _ => rfl, fun _ h => h⟩
  | cons b ks ih =>
    obtain ⟨h1, h2, h3, h4, h5, h6⟩ := hk b (by simp)
    have hb := hw b (by simp)
    rw [List.length_cons] at hl
    have hpre : ¬ iqText.isPrefixOf b.head = true := by rw [pre_iff]; intro h; exact not_both _ h h1
    have hpre' : ikText.isPrefixOf b.head = true := by rw [pre_iff]; exact h1
    obtain ⟨s1, hs1⟩ : ∃ s1, s1 = (order nbnd nmodes).foldl (fun s p => put iq ik (b.data p.1 p.2.1 p.2.2).1 (b.data p.1 p.2.1 p.2.2).2 p s)
      { s with ik := some (ik + 1) } := ⟨_, rfl⟩
    have hbody : ∀ r, prtgkkBody nq nmodes nk nbnd b.head (b.first :: b.second ::
        ((order nbnd nmodes).map (fun p => b.line p.1 p.2.1 p.2.2) ++ r)) s = some (r, s1) := by
      intro r
      unfold prtgkkBody
      rw [if_neg hpre, if_pos hpre', hik]
      simp only
      rw [values_eq _ (fun p s => put iq ik (b.data p.1 p.2.1 p.2.2).1 (b.data p.1 p.2.1 p.2.2).2 p s) _ _ (fun p hp t => by
        rw [mem_order] at hp
        obtain ⟨g1, g2⟩ := column_two _ _ (h5 _ hp.1 _ hp.2.1 _ hp.2.2).2
        unfold assign
        rw [g1, g2]
        simp only [Option.bind_eq_bind, Option.bind_some]
        rw [hs, Nat.add_sub_cancel, if_pos ⟨hiq, by omega⟩]
        rfl), hs1]
    obtain ⟨p1, p2, p3, p4, p5, p6, p7, -⟩ := puts iq ik omega (fun p => b.data p.1 p.2.1 p.2.2) (order nbnd nmodes) (fun p hp => by
      rw [mem_order] at hp
      exact hb _ hp.1 _ hp.2.1 _ hp.2.2) _ s1 hs1
    obtain ⟨s', g1, g2, g3, g4, g5, g6⟩ := ih (fun b hb => hk b (by simp [hb])) (fun b hb => hw b (by simp [hb])) s1 (ik + 1) (p1.trans hs) p2 (by omega)
    refine ⟨s', ?_, g2.trans p1, fun m b' hm j hj i hi nu hnu => ?_, fun a nu c i j h => ?_, fun a nu h => ?_, fun nu h => ?_⟩
    · rw [List.flatMap_cons, List.append_assoc, block_lines, List.cons_append, List.cons_append, List.cons_append, List.append_assoc,
        forLines_cons _ (prt_length nq nmodes nk nbnd) _ _ _ _ _ (hbody _), prt_plain _ _ _ _ _ _ _ h6]
      exact g1
    · cases m with
      | zero =>
        simp only [List.getElem?_cons_zero, Option.some.injEq] at hm
        subst hm
        have hm : (j, i, nu) ∈ order nbnd nmodes := (mem_order _ _ _).2 ⟨hj, hi, hnu⟩
        exact ⟨by rw [Nat.add_zero, g4 _ _ _ _ _ (Or.inr (by omega))]; exact p5 nu i j hm, g6 nu (p7 nu i j hm)⟩
      | succ m =>
        rw [List.getElem?_cons_succ] at hm
        have := g3 m b' hm j hj i hi nu hnu
        rw [show ik + (m + 1) = ik + 1 + m by omega]
        exact this
    · rw [g4 a nu c i j (by omega)]
      exact p3 a nu c i j (by omega)
    · rw [g5 a nu h]
      exact p4 a nu h
    · exact g6 nu (p6 nu h)

theorem prt_qs (omega : Nat → Nat → ℚ) (bs : List QBlock) (hb : ∀ b ∈ bs, b.Ok nbnd nmodes) (hk : ∀ b ∈ bs, b.ks.length ≤ nk) (s : Counters)
    (hl : s.iq + bs.length ≤ nq) (hw : ∀ m b, bs[m]? = some b → ∀ kb ∈ b.ks, ∀ j < nbnd, ∀ i < nbnd, ∀ nu < nmodes, (kb.data j i nu).1 = omega (s.iq + m) nu) :
    ∃ s', forLines (prtgkkBody nq nmodes nk nbnd) (bs.flatMap (QBlock.lines nbnd nmodes)) s = some s' ∧
      (∀ m b, bs[m]? = some b → ∀ ik kb, b.ks[ik]? = some kb → ∀ j < nbnd, ∀ i < nbnd, ∀ nu < nmodes,
        s'.g (s.iq + m) nu ik i j = some (kb.data j i nu).2 ∧ s'.w (s.iq + m) nu = some (omega (s.iq + m) nu)) ∧
      ∀ a < s.iq, s'.g a = s.g a ∧ s'.w a = s.w a := by
  induction bs generalizing s with
  | nil => exact ⟨s, rfl, fun m b h => absurd h (by simp), fun _ _ => ⟨rfl, rfl⟩⟩
  | cons b bs ih =>
    obtain ⟨h1, h2, h3, h4⟩ := hb b (by simp)
    rw [List.length_cons] at hl
    have hpre : iqText.isPrefixOf b.head = true := by rw [pre_iff]; exact h1
    have hpre' : ¬ ikText.isPrefixOf b.head = true := by rw [pre_iff]; exact not_both _ h1
    have hbody : ∀ r, prtgkkBody nq nmodes nk nbnd b.head r s = some (r, { s with ik := some 0, iq := s.iq + 1 }) := by
      intro r
      unfold prtgkkBody
      rw [if_pos hpre, if_neg hpre']
    obtain ⟨s1, g1, g2, g3, g4, g5, g6⟩ := prt_ks nq nmodes nk nbnd s.iq (by omega) (omega s.iq) b.ks h4 (fun kb hkb => hw 0 b rfl kb hkb)
      (bs.flatMap (QBlock.lines nbnd nmodes)) { s with ik := some 0, iq := s.iq + 1 } 0 rfl rfl (by rw [Nat.zero_add]; exact hk b (by simp))
    have g2 : s1.iq = s.iq + 1 := g2
    obtain ⟨s', f1, f2, f3⟩ := ih (fun b hb' => hb b (by simp [hb'])) (fun b hb' => hk b (by simp [hb'])) s1 (by omega) (fun m b' hm kb hkb j hj i hi nu hnu => by
      rw [hw (m + 1) b' (by rw [List.getElem?_cons_succ]; exact hm) kb hkb j hj i hi nu hnu, g2, show s.iq + (m + 1) = s.iq + 1 + m by omega])
    refine ⟨s', ?_, fun m b' hm ik kb hkb j hj i hi nu hnu => ?_, fun a ha => ?_⟩
    · rw [List.flatMap_cons, QBlock.lines, List.cons_append, List.append_assoc, forLines_cons _ (prt_length nq nmodes nk nbnd) _ _ _ _ _ (hbody _),
        prt_plain _ _ _ _ _ _ _ h3, g1]
      exact f1
    · cases m with
      | zero =>
        simp only [List.getElem?_cons_zero, Option.some.injEq] at hm
        subst hm
        obtain ⟨e1, e2⟩ := f3 s.iq (by omega)
        rw [Nat.add_zero, e1, e2]
        have := g3 ik kb hkb j hj i hi nu hnu
        rw [Nat.zero_add] at this
        exact this
      | succ m =>
        rw [List.getElem?_cons_succ] at hm
        have := f2 m b' hm ik kb hkb j hj i hi nu hnu
        rw [g2, show s.iq + 1 + m = s.iq + (m + 1) by omega] at this
        exact this
    · obtain ⟨e1, e2⟩ := f3 a (by omega)
      rw [e1, e2]
      refine ⟨?_, ?_⟩
      · funext nu c i j
        exact g4 a nu c i j (Or.inl (by omega))
      · funext nu
        exact g5 a nu (by omega)

end Prtgkk

/-- **C137**: `read_prtgkk` returns frequencies and coupling by position in the output. -/
theorem C137_prtgkk (f : Output) (nq nmodes nk nbnd : Nat) (hf : f.Ok nbnd nmodes) (hq : f.qs.length ≤ nq) (hk : ∀ b ∈ f.qs, b.ks.length ≤ nk)
    (omega : Nat → Nat → ℚ) (hw : ∀ iq b, f.qs[iq]? = some b → ∀ kb ∈ b.ks, ∀ j < nbnd, ∀ i < nbnd, ∀ nu < nmodes, (kb.data j i nu).1 = omega iq nu) :
    ∃ w g, readPrtgkk (f.lines nbnd nmodes) nq nmodes nk nbnd = some (w, g) ∧ ∀ iq b, f.qs[iq]? = some b → ∀ ik kb, b.ks[ik]? = some kb →
      ∀ j < nbnd, ∀ i < nbnd, ∀ nu < nmodes, g iq nu ik i j = some (kb.data j i nu).2 ∧ w iq nu = some (omega iq nu) := by
  obtain ⟨s', h1, h2, -⟩ := prt_qs nq nmodes nk nbnd omega f.qs hf.2 hk ⟨0, none, fun _ _ => none, fun _ _ _ _ _ => none⟩ (by simpa using hq)
    (fun m b hm => by simpa using hw m b hm)
  refine ⟨s'.w, s'.g, ?_, fun iq b hb ik kb hkb j hj i hi nu hnu => ?_⟩
  · rw [readPrtgkk, Output.lines, prt_plain _ _ _ _ _ _ _ hf.1, h1]
    rfl
  · have := h2 iq b hb ik kb hkb j hj i hi nu hnu
    simpa using this

/-! ### `read_L` -/

/-- **C137**: `read_L` returns the number after the last `L` at the beginning of a line. -/
theorem C137_L (pre post : List Str) (line x : Str) (cs : List Str) (L : ℚ) (hl : words line = "L".toList :: x :: cs) (hx : readFloat x = some L)
    (hpre : ∀ l ∈ pre, (words l).head? = some "L".toList → ∃ y cs z, words l = "L".toList :: y :: cs ∧ readFloat y = some z)
    (hpost : ∀ l ∈ post, (words l).head? ≠ some "L".toList) : readL (pre ++ line :: post) = some (some L) := by
  have h1 : ∀ (ls : List Str) (o : Option ℚ), (∀ l ∈ ls, (words l).head? = some "L".toList → ∃ y cs z, words l = "L".toList :: y :: cs ∧ readFloat y = some z) →
      ∃ o', ls.foldlM stepL o = some o' := by
    intro ls
    induction ls with
    | nil => exact fun o _ => ⟨o, rfl⟩
    | cons l ls ih =>
      intro o h
      have ih := fun o => ih o fun l hl => h l (by simp [hl])
      rw [List.foldlM_cons]
      cases hw : words l with
      | nil =>
        rw [show stepL o l = some o by rw [stepL, hw]]
        exact ih o
      | cons c cs =>
        by_cases hc : c = "L".toList
        · obtain ⟨y, cs', z, e1, e2⟩ := h l (by simp) (by rw [hw, hc]; rfl)
          rw [e1] at hw
          obtain ⟨rfl, rfl⟩ := List.cons.inj hw
          rw [show stepL o l = some (some z) by rw [stepL, e1]; simp [e2]]
          exact ih (some z)
        · rw [show stepL o l = some o by rw [stepL, hw]; exact if_neg hc]
          exact ih o
  have h2 : ∀ (ls : List Str) (o : Option ℚ), (∀ l ∈ ls, (words l).head? ≠ some "L".toList) →
      ls.foldlM stepL o = some o := by
    intro ls
    induction ls with
    | nil => exact fun o _ => rfl
    | cons l ls ih =>
      intro o h
      have ih := ih o fun l hl => h l (by simp [hl])
      rw [List.foldlM_cons]
      cases hw : words l with
      | nil =>
        rw [show stepL o l = some o by rw [stepL, hw]]
        exact ih
      | cons c cs =>
        have hc : c ≠ "L".toList := by
          rintro rfl
          exact h l (by simp) (by rw [hw]; rfl)
        rw [show stepL o l = some o by rw [stepL, hw]; exact if_neg hc]
        exact ih
  obtain ⟨o, ho⟩ := h1 pre none hpre
  rw [readL, List.foldlM_append, ho]
  simp only [Option.bind_eq_bind, Option.bind_some, List.foldlM_cons]
  rw [show stepL o line = some (some L) by rw [stepL, hl]; simp [hx]]
  exact h2 post (some L) hpost

/-! ### Example -/

/-- Lines of an output for one band and one mode. -/
def exampleLine (x : Str) : Str := "  1  1  1  -0.5  0.25  10.0  ".toList ++ x ++ "\n".toList

def exampleK (head x : Str) (a b g : ℚ) : KBlock :=
  ⟨head, a, b, "  ibnd  jbnd  imode ...\n".toList, "  ------\n".toList, fun _ _ _ => exampleLine x, fun _ _ _ => (10, g), ["  ------\n".toList]⟩

def exampleOutput : Output where
  pre := ["     Program EPW starts\n".toList, "\n".toList]
  qs := [⟨"     iq =       1 coord.:    0.0000000   0.0000000   0.0000000\n".toList, 0, 0, ["\n".toList],
      [exampleK "     ik =       1 coord.:    0.0000000   0.0000000   0.0000000\n".toList "3.5".toList 0 0 (7 / 2),
        exampleK "     ik =       2 coord.:    0.3333333   0.6666667   0.0000000\n".toList "4.5".toList (3333333 / 10000000) (6666667 / 10000000) (9 / 2)]⟩,
    ⟨"     iq =       2 coord.:   -0.5000000   0.0000000   0.0000000\n".toList, -1 / 2, 0, [],
      [exampleK "     ik =       1 coord.:    0.0000000   0.0000000   0.0000000\n".toList "5.5".toList 0 0 (11 / 2)]⟩]

instance (l : Str) : Decidable (Plain l) := by unfold Plain; infer_instance

theorem exampleK_ok (head x : Str) (a b g : ℚ) (h1 : "     ik = ".toList <+: head) (h2 : Coordinates head a b) (h3 : Plain (exampleLine x))
    (h4 : LastTwo (exampleLine x) (10, g)) : (exampleK head x a b g).Ok 1 1 :=
  ⟨h1, h2, by show Plain "  ibnd  jbnd  imode ...\n".toList; decide +kernel, by show Plain "  ------\n".toList; decide +kernel, fun _ _ _ _ _ _ => ⟨h3, h4⟩,
    fun l hl => by rw [List.mem_singleton.1 hl]; decide +kernel⟩

theorem example_ok : exampleOutput.Ok 1 1 := by
  refine ⟨by decide +kernel, fun b hb => ?_⟩
  simp only [exampleOutput, List.mem_cons, List.not_mem_nil, or_false] at hb
  rcases hb with rfl | rfl
  · refine ⟨by decide +kernel, ⟨["iq".toList, "=".toList, "1".toList, "coord.:".toList], "0.0000000".toList, "0.0000000".toList, "0.0000000".toList,
      by decide +kernel, by decide +kernel, by decide +kernel⟩, by decide +kernel, fun k hk => ?_⟩
    simp only [List.mem_cons, List.not_mem_nil, or_false] at hk
    rcases hk with rfl | rfl
    · exact exampleK_ok _ _ _ _ _ (by decide +kernel) ⟨["ik".toList, "=".toList, "1".toList, "coord.:".toList], "0.0000000".toList,
        "0.0000000".toList, "0.0000000".toList, by decide +kernel, by decide +kernel, by decide +kernel⟩ (by decide +kernel)
        ⟨["1".toList, "1".toList, "1".toList, "-0.5".toList, "0.25".toList], "10.0".toList, "3.5".toList, by decide +kernel, by decide +kernel,
        by decide +kernel⟩
    · exact exampleK_ok _ _ _ _ _ (by decide +kernel) ⟨["ik".toList, "=".toList, "2".toList, "coord.:".toList], "0.3333333".toList,
        "0.6666667".toList, "0.0000000".toList, by decide +kernel, by decide +kernel, by decide +kernel⟩ (by decide +kernel)
        ⟨["1".toList, "1".toList, "1".toList, "-0.5".toList, "0.25".toList], "10.0".toList, "4.5".toList, by decide +kernel, by decide +kernel,
        by decide +kernel⟩
  · refine ⟨by decide +kernel, ⟨["iq".toList, "=".toList, "2".toList, "coord.:".toList], "-0.5000000".toList, "0.0000000".toList, "0.0000000".toList,
      by decide +kernel, by decide +kernel, by decide +kernel⟩, by decide +kernel, fun k hk => ?_⟩
    simp only [List.mem_cons, List.not_mem_nil, or_false] at hk
    rcases hk with rfl
    exact exampleK_ok _ _ _ _ _ (by decide +kernel) ⟨["ik".toList, "=".toList, "1".toList, "coord.:".toList], "0.0000000".toList,
        "0.0000000".toList, "0.0000000".toList, by decide +kernel, by decide +kernel, by decide +kernel⟩ (by decide +kernel)
        ⟨["1".toList, "1".toList, "1".toList, "-0.5".toList, "0.25".toList], "10.0".toList, "5.5".toList, by decide +kernel, by decide +kernel,
        by decide +kernel⟩

/-- Hypotheses of `C137_partial`: the second q point of a 2 × 2 mesh is given as (-1/2, 0). -/
example : ∃ T, readOutput (exampleOutput.lines 1 1) [(1, 0), (0, 0)] 2 1 3 1 (1 / 10000) .modulus = some T ∧
    T 0 0 (0, 0) 0 0 = some (((11 / 2) / 1000 : ℚ) : ℂ) := by
  obtain ⟨T, h1, h2⟩ := C137_partial exampleOutput [(1, 0), (0, 0)] (by decide) 2 1 3 1 (1 / 10000) .modulus (by norm_num) (by norm_num) (by norm_num)
    example_ok
  refine ⟨T, h1, ?_⟩
  have h3 := ((h2 0 (by decide)).1 [_] _ [] rfl ?_ ?_ (0, 0)).1 [] _ [] rfl ?_ ?_ 0 (by norm_num) 0 (by norm_num) 0 (by norm_num)
  · exact h3
  · exact ⟨⟨by norm_num, by norm_num, -1, by norm_num⟩, by norm_num, by norm_num, 0, by norm_num⟩
  · intro b hb
    rw [List.mem_singleton.1 hb]
    rintro ⟨⟨-, -, z, hz⟩, -⟩
    have hz := abs_le.1 hz
    norm_num at hz
    have e1 : ((1 + z * 2 : ℤ) : ℚ) ≤ (0 : ℤ) ∨ ((1 : ℤ) : ℚ) ≤ ((1 + z * 2 : ℤ) : ℚ) := by
      rcases le_or_gt (1 + z * 2) 0 with h | h
      · exact Or.inl (by exact_mod_cast h)
      · exact Or.inr (by exact_mod_cast h)
    have e2 : (1 + z * 2 : ℤ) ≠ 0 := by omega
    have e3 : ((1 + z * 2 : ℤ) : ℚ) ≤ ((-1 : ℤ) : ℚ) ∨ ((1 : ℤ) : ℚ) ≤ ((1 + z * 2 : ℤ) : ℚ) := by
      rcases le_or_gt (1 + z * 2) (-1) with h | h
      · exact Or.inl (by exact_mod_cast h)
      · exact Or.inr (by exact_mod_cast (by omega : (1 : ℤ) ≤ 1 + z * 2))
    push_cast at e3
    rcases e3 with h | h <;> linarith [hz.1, hz.2]
  · exact ⟨⟨by norm_num, by norm_num, 0, by norm_num [exampleK]⟩, by norm_num, by norm_num, 0, by norm_num [exampleK]⟩
  · intro b hb
    exact absurd hb (by simp)

/-- Hypotheses of `C137_duplicate_violated` and `C137_range_violated`. -/
example : ∃ T, readOutput (exampleOutput.lines 1 1) [(1, 0), (1, 0)] 2 1 3 1 (1 / 10000) .modulus = some T ∧ ∀ nu k i j, T 1 nu k i j = none :=
  C137_duplicate_violated exampleOutput [(1, 0), (1, 0)] 2 1 3 1 (1 / 10000) .modulus example_ok 0 1 (by norm_num) (by decide) rfl

example : ∃ T, readOutput (exampleOutput.lines 1 1) [(-1, 0)] 2 1 3 1 (1 / 10000) .modulus = some T ∧ ∀ nu k i j, T 0 nu k i j = none :=
  C137_range_violated exampleOutput [(-1, 0)] (by decide) 2 1 3 1 (1 / 10000) .modulus (by norm_num) (by norm_num) (by norm_num) example_ok 0 (by decide)
    (Or.inl (by decide))

/-- Hypotheses of `C137_prtgkk`. -/
example : ∃ w g, readPrtgkk (exampleOutput.lines 1 1) 2 1 2 1 = some (w, g) ∧ g 0 0 1 0 0 = some (9 / 2) ∧ w 0 0 = some 10 := by
  obtain ⟨w, g, h1, h2⟩ := C137_prtgkk exampleOutput 2 1 2 1 example_ok (by decide) (by decide) (fun _ _ => 10) (fun iq b hb kb hkb j _ i _ nu _ => by
    have := List.mem_of_getElem? hb
    simp only [exampleOutput, List.mem_cons, List.not_mem_nil, or_false] at this
    rcases this with rfl | rfl
    · simp only [List.mem_cons, List.not_mem_nil, or_false] at hkb
      rcases hkb with rfl | rfl <;> rfl
    · simp only [List.mem_cons, List.not_mem_nil, or_false] at hkb
      rcases hkb with rfl
      rfl)
  exact ⟨w, g, h1, h2 0 _ rfl 1 _ rfl 0 (by norm_num) 0 (by norm_num) 0 (by norm_num)⟩

/-- Hypotheses of `C137_L`. -/
example : readL ["  something L\n".toList, "\n".toList, "  L  3.5 Bohr\n".toList, " end\n".toList] = some (some (7 / 2)) :=
  C137_L ["  something L\n".toList, "\n".toList] [" end\n".toList] "  L  3.5 Bohr\n".toList "3.5".toList ["Bohr".toList] (7 / 2) (by decide +kernel)
    (by decide +kernel) (fun l hl h => absurd h (by
      simp only [List.mem_cons, List.not_mem_nil, or_false] at hl
      rcases hl with rfl | rfl <;> decide +kernel)) (by decide +kernel)

end Verif.Epw
