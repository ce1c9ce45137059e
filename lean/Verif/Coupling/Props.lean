import Mathlib.Tactic.NormNum
import Verif.Coupling.Model
import Verif.Text.Lemmas
import Verif.MPI.Props
import Verif.Mesh.Props

/-!
# Property C136: electron-phonon coupling from text files
-/

namespace Verif.Coupling

open Verif.Text Verif.Mesh

/-! ### Specification -/

/-- Content of a line; k point, bands and mode are counted from zero. -/
structure Entry where
  k1 : Nat
  k2 : Nat
  j : Nat
  i : Nat
  nu : Nat
  value : ℚ × ℚ

/-- A text representing a number counted from one. -/
def Numeral (s : Str) (n : Nat) : Prop := readInt s = some ((n : Int) + 1)

instance (s : Str) (n : Nat) : Decidable (Numeral s n) := by unfold Numeral; infer_instance

/-- The line gives an entry: k point, anything, second and first band, mode and value. -/
def Gives (phase : Bool) (line : Str) (e : Entry) : Prop :=
  ∃ k1 k2 extra j i nu x y, Numeral k1 e.k1 ∧ Numeral k2 e.k2 ∧ Numeral j e.j ∧ Numeral i e.i ∧ Numeral nu e.nu ∧
    readFloat x = some e.value.1 ∧
    if phase then readFloat y = some e.value.2 ∧ words line = k1 :: k2 :: (extra ++ [j, i, nu, x, y])
    else e.value.2 = 0 ∧ words line = k1 :: k2 :: (extra ++ [j, i, nu, x])

/-- The line is a comment. -/
def Comment (line : Str) : Prop := ∃ s cs, words line = ('#' :: s) :: cs

/-- The lines give the entries (`none` for comments). -/
def Describes (phase : Bool) : List Str → List (Option Entry) → Prop :=
  List.Forall₂ fun l e => match e with
    | some e => Gives phase l e
    | none => Comment l

/-- Mode and k point exist. -/
def Entry.Inside (nmodes nk : Nat) (e : Entry) : Prop := e.nu < nmodes ∧ e.k1 < nk ∧ e.k2 < nk

/-- The entry has given indices. -/
def Entry.At (e : Entry) (nu k1 k2 i j : Nat) : Prop := e.nu = nu ∧ e.k1 = k1 ∧ e.k2 = k2 ∧ e.i = i ∧ e.j = j

/-! ### Lines -/

theorem not_hash (s : Str) : readInt ('#' :: s) = none := by
  have : digitVal '#' = none := by decide
  simp [readInt, sign, readNat, readDigits, this]

theorem numeral_head {s : Str} {n : Nat} (h : Numeral s n) : s.head? ≠ some '#' := by
  intro h'
  cases s with
  | nil => simp at h'
  | cons c s =>
    simp only [List.head?_cons, Option.some.injEq] at h'
    rw [Numeral, h', not_hash] at h
    exact absurd h (by simp)

/-- Place of an entry in the array. -/
def place (bands offset : Nat) (e : Entry) : Option (Nat × Nat) := do
  let i ← pyIndex bands ((e.i : Int) - offset)
  let j ← pyIndex bands ((e.j : Int) - offset)
  some (i, j)

/-- Bands above those selected. -/
def above (bands offset : Nat) (e : Entry) : Prop := bands + offset ≤ e.i ∨ bands + offset ≤ e.j

instance (bands offset : Nat) (e : Entry) : Decidable (above bands offset e) := by unfold above; infer_instance

theorem pyIndex_nat (n i : Nat) (h : i < n) : pyIndex n (i : Int) = some i := by
  rw [pyIndex, if_pos ⟨by omega, by omega⟩]
  rfl

theorem step_comment (phase : Bool) (nmodes nk bands offset : Nat) (t : Table) (line : Str) (h : Comment line) :
    step phase nmodes nk bands offset t line = some t := by
  obtain ⟨s, cs, h⟩ := h
  simp [step, h]

theorem step_entry (phase : Bool) (nmodes nk bands offset : Nat) (t : Table) (line : Str) (e : Entry) (h : Gives phase line e)
    (hi : e.Inside nmodes nk) : step phase nmodes nk bands offset t line = if above bands offset e then some t else
      (place bands offset e).map fun p => t.set e.nu ((e.k1 : Int), (e.k2 : Int)) p.1 p.2 e.value := by
  obtain ⟨k1, k2, extra, j, i, nu, x, y, h1, h2, h3, h4, h5, h6, h7⟩ := h
  obtain ⟨hnu, hk1, hk2⟩ := hi
  have hc : (k1.head? = some '#') = False := by simpa using numeral_head h1
  have key : ∀ cs, (List.take 2 (k1 :: k2 :: cs)).mapM readInt = some [(e.k1 : Int) + 1, (e.k2 : Int) + 1] := by
    intro cs
    simp only [List.take_succ_cons, List.take_zero, List.mapM_cons, List.mapM_nil]
    rw [h1, h2]
    rfl
  have key2 : [j, i, nu].mapM readInt = some [(e.j : Int) + 1, (e.i : Int) + 1, (e.nu : Int) + 1] := by
    simp only [List.mapM_cons, List.mapM_nil]
    rw [h3, h4, h5]
    rfl
  have hcond : (((e.i : Int) + 1 - 1 - offset ≥ bands ∨ (e.j : Int) + 1 - 1 - offset ≥ bands)) = above bands offset e := by
    unfold above
    apply propext
    omega
  have fin : ∀ cs, (bandColumns phase (k1 :: k2 :: cs)) = [j, i, nu] → valueOf phase (k1 :: k2 :: cs) = some e.value →
      words line = k1 :: k2 :: cs → step phase nmodes nk bands offset t line = if above bands offset e then some t else
      (place bands offset e).map fun p => t.set e.nu ((e.k1 : Int), (e.k2 : Int)) p.1 p.2 e.value := by
    intro cs hb hv hw
    unfold step
    rw [hw]
    simp only [hc, if_false]
    rw [key, hb, key2]
    simp only [hcond, hv]
    split
    · rfl
    · simp only [add_sub_cancel_right, pyIndex_nat _ _ hnu, pyIndex_nat _ _ hk1, pyIndex_nat _ _ hk2, Option.bind_eq_bind, Option.bind_some, place]
      cases pyIndex bands ((e.i : Int) - offset) with
      | none => rfl
      | some a =>
        cases pyIndex bands ((e.j : Int) - offset) with
        | none => rfl
        | some b => rfl
  cases phase with
  | true =>
    obtain ⟨h7, h8⟩ := h7
    refine fin _ ?_ ?_ h8
    · have e1 : k1 :: k2 :: (extra ++ [j, i, nu, x, y]) = (k1 :: k2 :: extra ++ [j, i, nu]) ++ [x, y] := by simp
      have e2 : (k1 :: k2 :: (extra ++ [j, i, nu, x, y])).length = (k1 :: k2 :: extra).length + 5 := by simp
      rw [bandColumns, if_pos rfl, e2, e1]
      rw [show (k1 :: k2 :: extra).length + 5 - 2 = (k1 :: k2 :: extra ++ [j, i, nu]).length by simp, List.take_left, Nat.add_sub_cancel,
        List.drop_left]
    · have : (k1 :: k2 :: (extra ++ [j, i, nu, x, y])).reverse = y :: x :: (nu :: i :: j :: (extra.reverse ++ [k2, k1])) := by simp
      rw [valueOf, if_pos rfl, this]
      simp [h6, h7]
  | false =>
    obtain ⟨h7, h8⟩ := h7
    refine fin _ ?_ ?_ h8
    · have e1 : k1 :: k2 :: (extra ++ [j, i, nu, x]) = (k1 :: k2 :: extra ++ [j, i, nu]) ++ [x] := by simp
      have e2 : (k1 :: k2 :: (extra ++ [j, i, nu, x])).length = (k1 :: k2 :: extra).length + 4 := by simp
      rw [bandColumns, if_neg (by decide), e2, e1]
      rw [show (k1 :: k2 :: extra).length + 4 - 1 = (k1 :: k2 :: extra ++ [j, i, nu]).length by simp, List.take_left, Nat.add_sub_cancel,
        List.drop_left]
    · have : (k1 :: k2 :: (extra ++ [j, i, nu, x])).reverse = x :: (nu :: i :: j :: (extra.reverse ++ [k2, k1])) := by simp
      rw [valueOf, if_neg (by decide), this]
      simp [h6, ← h7]

/-! ### Files -/

/-- The entry is stored at given indices. -/
def hits (bands offset nu k1 k2 i j : Nat) (e : Entry) : Bool :=
  !decide (above bands offset e) && decide (e.nu = nu ∧ e.k1 = k1 ∧ e.k2 = k2 ∧ place bands offset e = some (i, j))

/-- The last entry stored at given indices counts. -/
theorem fold_eq (phase : Bool) (nmodes nk bands offset : Nat) (lines : List Str) (es : List (Option Entry)) (h : Describes phase lines es)
    (hi : ∀ e, some e ∈ es → e.Inside nmodes nk ∧ (above bands offset e ∨ (place bands offset e).isSome)) (t0 : Table) :
    ∃ t, lines.foldlM (step phase nmodes nk bands offset) t0 = some t ∧ ∀ nu k1 k2 i j : Nat, t nu ((k1 : Int), (k2 : Int)) i j =
      match (es.filterMap id).reverse.find? (hits bands offset nu k1 k2 i j) with
      | some e => some e.value
      | none => t0 nu ((k1 : Int), (k2 : Int)) i j := by
  induction h generalizing t0 with
  | nil => exact ⟨t0, rfl, fun _ _ _ _ _ => rfl⟩
  | @cons l e ls es hl _ ih =>
    have ih := ih fun e he => hi e (List.mem_cons_of_mem _ he)
    cases e with
    | none =>
      obtain ⟨t, h1, h2⟩ := ih t0
      refine ⟨t, ?_, fun nu k1 k2 i j => ?_⟩
      · rw [List.foldlM_cons, step_comment _ _ _ _ _ _ _ hl]
        exact h1
      · rw [h2]
        rfl
    | some e =>
      obtain ⟨hin, hpl⟩ := hi e (by simp)
      obtain ⟨t1, ht1, hval⟩ : ∃ t1, step phase nmodes nk bands offset t0 l = some t1 ∧ ∀ nu k1 k2 i j : Nat,
          t1 nu ((k1 : Int), (k2 : Int)) i j = if hits bands offset nu k1 k2 i j e then some e.value else t0 nu ((k1 : Int), (k2 : Int)) i j := by
        rw [step_entry _ _ _ _ _ _ _ _ hl hin]
        by_cases ha : above bands offset e
        · refine ⟨t0, by rw [if_pos ha], fun nu k1 k2 i j => ?_⟩
          simp [hits, ha]
        · obtain ⟨p, hp⟩ := Option.isSome_iff_exists.1 (hpl.resolve_left ha)
          refine ⟨_, by rw [if_neg ha, hp, Option.map_some], fun nu k1 k2 i j => ?_⟩
          unfold Table.set hits
          simp only [ha, decide_false, Bool.not_false, Bool.true_and, hp, Option.some.injEq, Prod.mk.injEq, Nat.cast_inj, decide_eq_true_eq]
          have : (nu = e.nu ∧ (k1 = e.k1 ∧ k2 = e.k2) ∧ i = p.1 ∧ j = p.2) ↔ (e.nu = nu ∧ e.k1 = k1 ∧ e.k2 = k2 ∧ p = (i, j)) := by
            rw [Prod.ext_iff]
            constructor <;> rintro ⟨a, b, c⟩
            · exact ⟨a.symm, b.1.symm, b.2.symm, c.1.symm, c.2.symm⟩
            · exact ⟨a.symm, ⟨b.symm, c.1.symm⟩, c.2.1.symm, c.2.2.symm⟩
          simp only [this]
      obtain ⟨t, h1, h2⟩ := ih t1
      refine ⟨t, ?_, fun nu k1 k2 i j => ?_⟩
      · rw [List.foldlM_cons, ht1]
        exact h1
      · rw [h2, hval]
        rw [show (some e :: es).filterMap id = e :: es.filterMap id from rfl, List.reverse_cons, List.find?_append, List.find?_cons, List.find?_nil]
        cases (es.filterMap id).reverse.find? (hits bands offset nu k1 k2 i j) with
        | some e' => rfl
        | none =>
          cases hits bands offset nu k1 k2 i j e <;> rfl

/-- Order of the entries for the same k point and mode: second band, then first band. -/
def Ordered (es : List (Option Entry)) : Prop :=
  (es.filterMap id).Pairwise fun e e' => e.nu = e'.nu → e.k1 = e'.k1 → e.k2 = e'.k2 → e.j < e'.j ∨ e.j = e'.j ∧ e.i ≤ e'.i

theorem place_low (bands offset : Nat) (e : Entry) (i j : Nat) (h : place bands offset e = some (i, j)) :
    (e.i = i + offset ∨ e.i < offset ∧ e.i + bands = i + offset) ∧ (e.j = j + offset ∨ e.j < offset ∧ e.j + bands = j + offset) := by
  have key : ∀ a b : Nat, pyIndex bands ((a : Int) - offset) = some b → a = b + offset ∨ a < offset ∧ a + bands = b + offset := by
    intro a b h
    unfold pyIndex at h
    split at h
    · have := Option.some.inj h
      omega
    · split at h
      · have := Option.some.inj h
        omega
      · exact absurd h (by simp)
  unfold place at h
  cases h1 : pyIndex bands ((e.i : Int) - offset) with
  | none => rw [h1] at h; exact absurd h (by simp)
  | some a =>
    cases h2 : pyIndex bands ((e.j : Int) - offset) with
    | none => rw [h1, h2] at h; exact absurd h (by simp)
    | some b =>
      rw [h1, h2] at h
      have := Option.some.inj h
      rw [Prod.mk.injEq] at this
      obtain ⟨rfl, rfl⟩ := this
      exact ⟨key _ _ h1, key _ _ h2⟩

theorem place_proper (bands offset : Nat) (e : Entry) (i j : Nat) (hi : i < bands) (hj : j < bands) (h1 : e.i = i + offset) (h2 : e.j = j + offset) :
    place bands offset e = some (i, j) := by
  unfold place
  rw [h1, h2, show ((i + offset : Nat) : Int) - offset = (i : Int) by omega, show ((j + offset : Nat) : Int) - offset = (j : Int) by omega,
    pyIndex_nat _ _ hi, pyIndex_nat _ _ hj]
  rfl

theorem place_isSome (bands offset : Nat) (e : Entry) (h1 : e.i < bands + offset) (h2 : e.j < bands + offset) (h3 : offset ≤ e.i + bands)
    (h4 : offset ≤ e.j + bands) : (place bands offset e).isSome := by
  have key : ∀ a : Nat, a < bands + offset → offset ≤ a + bands → ∃ b, pyIndex bands ((a : Int) - offset) = some b := by
    intro a ha hb
    unfold pyIndex
    split
    · exact ⟨_, rfl⟩
    · rw [if_pos ⟨by omega, by omega⟩]
      exact ⟨_, rfl⟩
  obtain ⟨a, ha⟩ := key _ h1 h3
  obtain ⟨b, hb⟩ := key _ h2 h4
  unfold place
  rw [ha, hb]
  rfl

/-- In a list in order, what follows an element is not before it. -/
theorem find_last (es : List Entry) (R : Entry → Entry → Prop) (h : es.Pairwise R) (p : Entry → Bool) (e0 : Entry) (h0 : e0 ∈ es) (hp : p e0 = true) :
    ∃ e, es.reverse.find? p = some e ∧ p e = true ∧ e ∈ es ∧ (e = e0 ∨ R e0 e) := by
  induction es with
  | nil => exact absurd h0 (by simp)
  | cons a es ih =>
    rw [List.pairwise_cons] at h
    rw [List.reverse_cons, List.find?_append]
    by_cases hm : e0 ∈ es
    · obtain ⟨e, h1, h2, h3, h4⟩ := ih h.2 hm
      exact ⟨e, by rw [h1]; rfl, h2, by simp [h3], h4⟩
    · obtain rfl : e0 = a := (List.mem_cons.1 h0).resolve_right hm
      cases hf : es.reverse.find? p with
      | none => exact ⟨e0, by simp [hp], hp, by simp, Or.inl rfl⟩
      | some e =>
        have hm := List.mem_of_find?_eq_some hf
        rw [List.mem_reverse] at hm
        exact ⟨e, rfl, List.find?_some hf, by simp [hm], Or.inr (h.1 e hm)⟩

/-- **C136**: `coupling` returns the values given in the files for the bands selected, and NaN where a file gives none, on any number of
processes, if no lower bands are listed, or if these are not more than the number of bands selected and listed in the usual order. -/
theorem C136_partial (size : Nat) (hsize : 0 < size) (phase : Bool) (files : Nat → List Str) (Q : List Nat) (nmodes nk bands offset : Nat)
    (es : Nat → List (Option Entry)) (h : ∀ iq ∈ Q, Describes phase (files iq) (es iq))
    (hi : ∀ iq ∈ Q, ∀ e, some e ∈ es iq → e.Inside nmodes nk)
    (hu : ∀ iq ∈ Q, ∀ e e', some e ∈ es iq → some e' ∈ es iq → e.At e'.nu e'.k1 e'.k2 e'.i e'.j → e.value = e'.value)
    (hl : (∀ iq ∈ Q, ∀ e, some e ∈ es iq → offset ≤ e.i ∧ offset ≤ e.j) ∨ offset ≤ bands ∧ ∀ iq ∈ Q, Ordered (es iq)) :
    ∃ T, coupling size files Q nmodes nk bands offset false phase = some T ∧ T.length = Q.length ∧ ∀ n, (hn : n < Q.length) →
      ∃ t, T[n]? = some t ∧ (∀ e, some e ∈ es Q[n] → ∀ i < bands, ∀ j < bands, e.i = i + offset → e.j = j + offset →
        t e.nu ((e.k1 : Int), (e.k2 : Int)) i j = some e.value) ∧
      ((∀ e, some e ∈ es Q[n] → offset ≤ e.i ∧ offset ≤ e.j) → ∀ (nu k1 k2 i j : Nat) v, t nu ((k1 : Int), (k2 : Int)) i j = some v →
        ∃ e, some e ∈ es Q[n] ∧ e.At nu k1 k2 (i + offset) (j + offset) ∧ e.value = v) := by
  have key : ∀ iq ∈ Q, ∃ t, readFile phase nmodes nk bands offset (files iq) = some t ∧
      (∀ e, some e ∈ es iq → ∀ i < bands, ∀ j < bands, e.i = i + offset → e.j = j + offset →
        t e.nu ((e.k1 : Int), (e.k2 : Int)) i j = some e.value) ∧
      ((∀ e, some e ∈ es iq → offset ≤ e.i ∧ offset ≤ e.j) → ∀ (nu k1 k2 i j : Nat) v, t nu ((k1 : Int), (k2 : Int)) i j = some v →
        ∃ e, some e ∈ es iq ∧ e.At nu k1 k2 (i + offset) (j + offset) ∧ e.value = v) := by
    intro iq hq
    have hmem : ∀ e, e ∈ (es iq).filterMap id ↔ some e ∈ es iq := fun e => by simp
    have hpl : ∀ e, some e ∈ es iq → e.Inside nmodes nk ∧ (above bands offset e ∨ (place bands offset e).isSome) := by
      intro e he
      refine ⟨hi iq hq e he, ?_⟩
      by_cases ha : above bands offset e
      · exact Or.inl ha
      · unfold above at ha
        right
        rcases hl with hl | hl
        · have := hl iq hq e he
          exact place_isSome _ _ _ (by omega) (by omega) (by omega) (by omega)
        · exact place_isSome _ _ _ (by omega) (by omega) (by omega) (by omega)
    obtain ⟨t, h1, h2⟩ := fold_eq phase nmodes nk bands offset (files iq) (es iq) (h iq hq) hpl fun _ _ _ _ => none
    refine ⟨t, h1, fun e he i hib j hjb h3 h4 => ?_, fun hall nu k1 k2 i j v hv => ?_⟩
    · have hhit : hits bands offset e.nu e.k1 e.k2 i j e = true := by
        have : ¬ above bands offset e := by unfold above; omega
        simp [hits, this, place_proper bands offset e i j hib hjb h3 h4]
      rw [h2]
      have fin : ∀ e', hits bands offset e.nu e.k1 e.k2 i j e' = true → some e' ∈ es iq →
          ((offset ≤ e'.i ∧ offset ≤ e'.j) ∨ (e' = e ∨ (e.nu = e'.nu → e.k1 = e'.k1 → e.k2 = e'.k2 → e.j < e'.j ∨ e.j = e'.j ∧ e.i ≤ e'.i))) →
          e'.value = e.value := by
        intro e' hh hm hc
        simp only [hits, Bool.and_eq_true, Bool.not_eq_true', decide_eq_false_iff_not, decide_eq_true_eq] at hh
        obtain ⟨ha, g1, g2, g3, g4⟩ := hh
        obtain ⟨g5, g6⟩ := place_low _ _ _ _ _ g4
        rcases hc with hc | hc | hc
        · exact hu iq hq e' e hm he ⟨g1, g2, g3, by omega, by omega⟩
        · rw [hc]
        · have := hc g1.symm g2.symm g3.symm
          exact hu iq hq e' e hm he ⟨g1, g2, g3, by omega, by omega⟩
      rcases hl with hl | hl
      · cases hf : ((es iq).filterMap id).reverse.find? (hits bands offset e.nu e.k1 e.k2 i j) with
        | none =>
          rw [List.find?_eq_none] at hf
          exact absurd hhit (by simpa using hf e (by simpa using he))
        | some e' =>
          have hm := List.mem_of_find?_eq_some hf
          rw [List.mem_reverse, hmem] at hm
          simp only
          rw [fin e' (List.find?_some hf) hm (Or.inl (hl iq hq e' hm))]
      · obtain ⟨e', h5, h6, h7, h8⟩ := find_last _ _ (hl.2 iq hq) _ e ((hmem e).2 he) hhit
        rw [h5]
        simp only
        rw [fin e' h6 ((hmem e').1 h7) (Or.inr h8)]
    · rw [h2] at hv
      cases hf : ((es iq).filterMap id).reverse.find? (hits bands offset nu k1 k2 i j) with
      | none => rw [hf] at hv; exact absurd hv (by simp)
      | some e' =>
        rw [hf] at hv
        have hm := List.mem_of_find?_eq_some hf
        rw [List.mem_reverse, hmem] at hm
        have hh := List.find?_some hf
        simp only [hits, Bool.and_eq_true, Bool.not_eq_true', decide_eq_false_iff_not, decide_eq_true_eq] at hh
        obtain ⟨ha, g1, g2, g3, g4⟩ := hh
        obtain ⟨g5, g6⟩ := place_low _ _ _ _ _ g4
        have := hall e' hm
        unfold above at ha
        exact ⟨e', hm, ⟨g1, g2, g3, by omega, by omega⟩, Option.some.inj hv⟩
  classical
  let F : Nat → Table := fun iq => (readFile phase nmodes nk bands offset (files iq)).getD fun _ _ _ _ => none
  have hF : ∀ iq ∈ Q, readFile phase nmodes nk bands offset (files iq) = some (F iq) := by
    intro iq hq
    obtain ⟨t, ht, -⟩ := key iq hq
    simp only [F, ht, Option.getD_some]
  refine ⟨Q.map F, ?_, by simp, fun n hn => ⟨F Q[n], by simp [hn], ?_⟩⟩
  · rw [coupling, Verif.MPI.C02_parMap size hsize]
    simp only [Option.bind_eq_bind, Option.bind_some]
    apply mapM_map
    intro iq hq
    simp [hF iq hq]
  · obtain ⟨t, ht, ht'⟩ := key Q[n] (List.getElem_mem hn)
    have : F Q[n] = t := by simp only [F, ht, Option.getD_some]
    rw [this]
    exact ht'

/-- **C136**: with completion, values given for irreducible k points are sufficient if the coupling has the symmetry of the lattice; values
given are never changed. -/
theorem C136_complete (nk : Nat) (t : Table) (nu i j : Nat) (F : P → ℚ × ℚ) (hF : ∀ k q, SymEquiv .a60 nk k q → F q = F k)
    (hd : ∀ k v, t nu k i j = some v → v = F k) (hirr : ∀ k ∈ irreducibles nk .a60, (t nu k i j).isSome) (k : P) (hk : OnMesh nk k) :
    completion nk t nu k i j = some (F k) :=
  C21_recovers nk .a60 F hF (fun k => t nu k i j) hd hirr k hk

/-- **C136** (violation): a file that lists a band more than the number of selected bands below the first one cannot be read. -/
theorem C136_offset_violated (phase : Bool) (nmodes nk bands offset : Nat) (lines : List Str) (line : Str) (hm : line ∈ lines) (e : Entry)
    (h : Gives phase line e) (hi : e.Inside nmodes nk) (h1 : e.i + bands < offset) (h2 : e.j < bands + offset) :
    readFile phase nmodes nk bands offset lines = none := by
  have hs : ∀ t, step phase nmodes nk bands offset t line = none := by
    intro t
    rw [step_entry _ _ _ _ _ _ _ _ h hi, if_neg (by unfold above; omega)]
    have : pyIndex bands ((e.i : Int) - offset) = none := by
      rw [pyIndex, if_neg (by omega), if_neg (by omega)]
    unfold place
    rw [this]
    rfl
  unfold readFile
  generalize (fun _ _ _ _ => none : Table) = t0
  induction lines generalizing t0 with
  | nil => exact absurd hm (by simp)
  | cons l ls ih =>
    rw [List.foldlM_cons]
    rcases List.mem_cons.1 hm with rfl | hm
    · rw [hs]
      rfl
    · cases step phase nmodes nk bands offset t0 l with
      | none => rfl
      | some t => exact ih hm t

/-- **C136** (violation): the coupling of the band below the first one selected is returned for the last one selected if nothing is given for
the latter. -/
theorem C136_alias_violated (phase : Bool) (nmodes nk bands offset : Nat) (line : Str) (e : Entry) (h : Gives phase line e)
    (hi : e.Inside nmodes nk) (hb : 0 < bands) (h1 : e.i + 1 = offset) (h2 : e.j + 1 = offset) :
    ∃ t, readFile phase nmodes nk bands offset [line] = some t ∧
      t e.nu ((e.k1 : Int), (e.k2 : Int)) (bands - 1) (bands - 1) = some e.value := by
  have hp : pyIndex bands (-1) = some (bands - 1) := by
    rw [pyIndex, if_neg (by omega), if_pos (by omega)]
    congr 1
    omega
  refine ⟨_, by rw [readFile, List.foldlM_cons, step_entry _ _ _ _ _ _ _ _ h hi, if_neg (by unfold above; omega), place,
    show (e.i : Int) - offset = -1 by omega, show (e.j : Int) - offset = -1 by omega, hp]; rfl, ?_⟩
  simp [Table.set]

/-! ### Example -/

/-- A file. -/
def sample : List Str :=
  ["# k1 k2 ... j i nu g\n".toList, " 1 2 0.0 0.5  2 2 1  0.25\n".toList, " 1 2 0.0 0.5  2 3 1 -1.5\n".toList, " 2 1 0.5 0.0  3 2 1 4\n".toList]

def sampleEntries : List (Option Entry) :=
  [none, some ⟨0, 1, 1, 1, 0, (1 / 4, 0)⟩, some ⟨0, 1, 1, 2, 0, (-3 / 2, 0)⟩, some ⟨1, 0, 2, 1, 0, (4, 0)⟩]

theorem sample_describes : Describes false sample sampleEntries := by
  refine List.Forall₂.cons ⟨_, _, rfl⟩ (List.Forall₂.cons ?_ (List.Forall₂.cons ?_ (List.Forall₂.cons ?_ List.Forall₂.nil)))
  · exact ⟨"1".toList, "2".toList, ["0.0".toList, "0.5".toList], "2".toList, "2".toList, "1".toList, "0.25".toList, [], by decide +kernel,
      by decide +kernel, by decide +kernel, by decide +kernel, by decide +kernel, by decide +kernel, rfl, by decide +kernel⟩
  · exact ⟨"1".toList, "2".toList, ["0.0".toList, "0.5".toList], "2".toList, "3".toList, "1".toList, "-1.5".toList, [], by decide +kernel,
      by decide +kernel, by decide +kernel, by decide +kernel, by decide +kernel, by decide +kernel, rfl, by decide +kernel⟩
  · exact ⟨"2".toList, "1".toList, ["0.5".toList, "0.0".toList], "3".toList, "2".toList, "1".toList, "4".toList, [], by decide +kernel,
      by decide +kernel, by decide +kernel, by decide +kernel, by decide +kernel, by decide +kernel, rfl, by decide +kernel⟩

/-- Hypotheses of `C136_partial`: bands 2 and 3 of a file. -/
example : ∃ T, coupling 3 (fun _ => sample) [1, 2] 1 2 2 1 false false = some T ∧ T.length = 2 := by
  obtain ⟨T, h1, h2, -⟩ := C136_partial 3 (by norm_num) false (fun _ => sample) [1, 2] 1 2 2 1 (fun _ => sampleEntries)
    (fun _ _ => sample_describes) (fun _ _ e he => by
      simp only [sampleEntries, List.mem_cons, List.not_mem_nil, or_false, reduceCtorEq, false_or, Option.some.injEq] at he
      rcases he with rfl | rfl | rfl <;> simp [Entry.Inside])
    (fun _ _ e e' he he' ha => by
      simp only [sampleEntries, List.mem_cons, List.not_mem_nil, or_false, reduceCtorEq, false_or, Option.some.injEq] at he he'
      rcases he with rfl | rfl | rfl <;> rcases he' with rfl | rfl | rfl <;> simp [Entry.At] at ha ⊢)
    (Or.inl fun _ _ e he => by
      simp only [sampleEntries, List.mem_cons, List.not_mem_nil, or_false, reduceCtorEq, false_or, Option.some.injEq] at he
      rcases he with rfl | rfl | rfl <;> simp)
  exact ⟨T, h1, h2⟩

/-- Hypotheses of `C136_partial`, second case: band 1 is listed, too, in order. -/
example : Ordered sampleEntries ∧ 1 ≤ 2 := by
  refine ⟨?_, by norm_num⟩
  show ([⟨0, 1, 1, 1, 0, (1 / 4, 0)⟩, ⟨0, 1, 1, 2, 0, (-3 / 2, 0)⟩, ⟨1, 0, 2, 1, 0, (4, 0)⟩] : List Entry).Pairwise _
  simp

/-- Hypotheses of `C136_offset_violated`: only band 4 is selected, band 2 is listed. -/
example : readFile false 1 2 1 3 sample = none :=
  C136_offset_violated false 1 2 1 3 sample " 1 2 0.0 0.5  2 2 1  0.25\n".toList (by decide +kernel) ⟨0, 1, 1, 1, 0, (1 / 4, 0)⟩
    (by have := sample_describes; cases this with | cons _ h => cases h with | cons h _ => exact h)
    ⟨by norm_num, by norm_num, by norm_num⟩ (by norm_num) (by norm_num)

/-- Hypotheses of `C136_alias_violated`: only band 3 is selected, band 2 is listed. -/
example : ∃ t, readFile false 1 2 1 2 [" 1 2 0.0 0.5  2 2 1  0.25\n".toList] = some t ∧ t 0 (0, 1) 0 0 = some (1 / 4, 0) :=
  C136_alias_violated false 1 2 1 2 " 1 2 0.0 0.5  2 2 1  0.25\n".toList ⟨0, 1, 1, 1, 0, (1 / 4, 0)⟩
    (by have := sample_describes; cases this with | cons _ h => cases h with | cons h _ => exact h)
    ⟨by norm_num, by norm_num, by norm_num⟩ (by norm_num) rfl rfl

/-- Hypotheses of `C136_complete`: a constant given at the irreducible points only. -/
example (k : P) (hk : OnMesh 3 k) :
    completion 3 (fun _ k _ _ => if k ∈ irreducibles 3 .a60 then some (1, 2) else none) 0 k 0 0 = some (1, 2) :=
  C136_complete 3 _ 0 0 0 (fun _ => (1, 2)) (fun _ _ _ => rfl) (fun k v h => by
    split at h
    · exact (Option.some.inj h).symm
    · exact absurd h (by simp)) (fun k hk => by simp [hk]) k hk

end Verif.Coupling
