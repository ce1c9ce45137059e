import Verif.Pwo.Lemmas
import Mathlib.Tactic.FinCases

/-! # Property C129: energies from the output of `pw.x` -/

namespace Verif.Pwo

open Verif.Text

/-! ### Steps -/

/-- New values of the variables. -/
def after (Ry : ℚ) (v : Vars) : Item → Vars
  | .electrons x => { v with Ne := some (roundTo 2 x) }
  | .states n => { v with Ns := some n }
  | .kpoints n _ => { v with Nk := some n }
  | .fermi x => { v with eF := some (roundTo 4 x) }
  | .levels x y => { v with eF := some ((roundTo 4 x + roundTo 4 y) / 2) }
  | .level _ => v
  | .energy x => { v with E := some (roundTo 8 x * Ry) }
  | .bands e => { v with e := e.map fun r => r.2.map (roundTo 4), given := true }
  | .other _ => v

theorem fixed_ne (sp w d : Nat) (x : ℚ) : (fFixed sp w d x).text ≠ [] := (showFixed_solid d x).1

theorem int_ne (sp w : Nat) (z : Int) : (fInt sp w z).text ≠ [] := (showInt_solid z).1

/-- Proves that a line with a number does not contain a keyword. -/
macro "absent" w:str : tactic => `(tactic| exact has_num _ $w _ _ _ (fixed_ne _ _ _ _) (showFixed_numeric _ _) (by decide +kernel)
  (by decide +kernel) (by decide +kernel) (by decide +kernel))

theorem step_electrons (Ry x : ℚ) (v : Vars) (ls : List Str) :
    pwoStep Ry v (numLine "     number of electrons       =" (fFixed 1 12 2 x) "") ls = .ok (after Ry v (.electrons x), ls) := by
  rw [pwoStep, if_pos (has_self _ _ _ _ (by decide +kernel)), floatAt_last _ _ _ _ (by norm_num) _ (Or.inl Nat.one_pos)]
  rfl

theorem step_states (Ry : ℚ) (n : Nat) (v : Vars) (ls : List Str) :
    pwoStep Ry v (numLine "     number of Kohn-Sham states=" (fInt 1 12 n) "") ls = .ok (after Ry v (.states n), ls) := by
  have h1 : has "number of electrons".toList (numLine "     number of Kohn-Sham states=" (fInt 1 12 n) "") = false :=
    has_num _ "electrons" _ _ _ (int_ne _ _ _) (showInt_numeric (n : Int)) (by decide +kernel) (by decide +kernel) (by decide +kernel)
      (by decide +kernel)
  rw [pwoStep, if_neg (by rw [h1]; decide), if_pos (has_self _ _ _ _ (by decide +kernel)), intAt_last _ _ _ _ (Or.inl Nat.one_pos)]
  rfl

theorem free_kpoints (n : Nat) (h : n < 10 ^ 5) : (fInt 0 6 (n : Int)).Free := by
  right
  show (showInt n).length < 6
  have : showInt n = showNat n := by simp [showInt]
  rw [this]
  have := showNat_length n 5 (by norm_num) h
  omega

theorem infix_newline (w : String) (s : Str) (hw : '\n' ∉ w.toList) (h : ¬ w.toList <:+: s) : ¬ w.toList <:+: s ++ ['\n'] := by
  intro h'
  rcases List.infix_concat_iff.1 h' with h' | h'
  · obtain ⟨t, ht⟩ := h'
    rcases List.eq_nil_or_concat w.toList with e | ⟨u, c, e⟩
    · rw [e] at h
      exact h List.nil_infix
    · rw [List.concat_eq_append] at e
      rw [e, ← List.append_assoc] at ht
      have := List.append_inj_right' ht rfl
      rw [List.singleton_inj] at this
      exact hw (by rw [e, this]; simp)
  · exact h h'

theorem step_kpoints (Ry : ℚ) (n : Nat) (s : String) (v : Vars) (ls : List Str) (h : (Item.kpoints n s).Valid) :
    pwoStep Ry v (numLine "     number of k points=" (fInt 0 6 n) s) ls = .ok (after Ry v (.kpoints n s), ls) := by
  obtain ⟨h0, hs, h1, h2, -⟩ := h
  have e1 : has "number of electrons".toList (numLine "     number of k points=" (fInt 0 6 n) s) = false :=
    has_num _ "electrons" _ _ _ (int_ne _ _ _) (showInt_numeric (n : Int)) (by decide +kernel) (by decide +kernel) (by decide +kernel)
      (infix_newline _ _ (by decide) h1)
  have e2 : has "number of Kohn-Sham states".toList (numLine "     number of k points=" (fInt 0 6 n) s) = false :=
    has_num _ "Kohn" _ _ _ (int_ne _ _ _) (showInt_numeric (n : Int)) (by decide +kernel) (by decide +kernel) (by decide +kernel)
      (infix_newline _ _ (by decide) h2)
  rw [pwoStep, if_neg (by rw [e1]; decide), if_neg (by rw [e2]; decide), if_pos (has_self _ _ _ _ (by decide +kernel))]
  have := intAt_at "     number of k points=" s 0 6 n (free_kpoints n h0) hs 4 (by decide +kernel)
  rw [show ((4 : Nat) : Int) = 4 from rfl] at this
  rw [this]
  rfl

theorem step_fermi (Ry x : ℚ) (v : Vars) (ls : List Str) :
    pwoStep Ry v (numLine "     the Fermi energy is" (fFixed 1 10 4 x) " ev") ls = .ok (after Ry v (.fermi x), ls) := by
  have h1 : has "number of electrons".toList (numLine "     the Fermi energy is" (fFixed 1 10 4 x) " ev") = false := by
    absent "number"
  have h2 : has "number of Kohn-Sham states".toList (numLine "     the Fermi energy is" (fFixed 1 10 4 x) " ev") = false := by
    absent "number"
  have h3 : has "number of k points".toList (numLine "     the Fermi energy is" (fFixed 1 10 4 x) " ev") = false := by
    absent "number"
  rw [pwoStep, if_neg (by rw [h1]; decide), if_neg (by rw [h2]; decide), if_neg (by rw [h3]; decide),
    if_pos (has_self _ _ _ _ (by decide +kernel)), floatAt_last2 _ _ _ _ _ (by norm_num) _ (Or.inl Nat.one_pos) ⟨"ev", by decide⟩
    "ev".toList (by decide +kernel)]
  rfl

theorem step_level (Ry x : ℚ) (v : Vars) (ls : List Str) :
    pwoStep Ry v (numLine "     highest occupied level (ev):" (fFixed 1 10 4 x) "") ls = .ok (v, ls) := by
  have h1 : has "number of electrons".toList (numLine "     highest occupied level (ev):" (fFixed 1 10 4 x) "") = false := by
    absent "number"
  have h2 : has "number of Kohn-Sham states".toList (numLine "     highest occupied level (ev):" (fFixed 1 10 4 x) "") = false := by
    absent "number"
  have h3 : has "number of k points".toList (numLine "     highest occupied level (ev):" (fFixed 1 10 4 x) "") = false := by
    absent "number"
  have h4 : has "the Fermi energy is".toList (numLine "     highest occupied level (ev):" (fFixed 1 10 4 x) "") = false := by
    absent "Fermi"
  have h5 : has "highest occupied, lowest unoccupied level".toList (numLine "     highest occupied level (ev):" (fFixed 1 10 4 x) "") =
      false := by
    absent "lowest"
  have h6 : "!".toList.isPrefixOf (numLine "     highest occupied level (ev):" (fFixed 1 10 4 x) "") = false := rfl
  have h7 : has "End of self-consistent calculation".toList (numLine "     highest occupied level (ev):" (fFixed 1 10 4 x) "") =
      false := by
    absent "consistent"
  rw [pwoStep, if_neg (by rw [h1]; decide), if_neg (by rw [h2]; decide), if_neg (by rw [h3]; decide), if_neg (by rw [h4]; decide),
    if_neg (by rw [h5]; decide), if_neg (by rw [h6]; decide), if_neg (by rw [h7]; decide)]

theorem free_energy (x : ℚ) (h : |x| ≤ 10 ^ 6 - 1) : (fFixed 0 17 8 x).Free := by
  right
  show (showFixed 8 x).length < 17
  have := (showFixed_length 8 6 (by norm_num) (by norm_num) x h).1
  omega

theorem step_energy (Ry x : ℚ) (v : Vars) (ls : List Str) (h : (Item.energy x).Valid) :
    pwoStep Ry v (numLine "!    total energy              =" (fFixed 0 17 8 x) " Ry") ls = .ok (after Ry v (.energy x), ls) := by
  have h1 : has "number of electrons".toList (numLine "!    total energy              =" (fFixed 0 17 8 x) " Ry") = false := by
    absent "number"
  have h2 : has "number of Kohn-Sham states".toList (numLine "!    total energy              =" (fFixed 0 17 8 x) " Ry") = false := by
    absent "number"
  have h3 : has "number of k points".toList (numLine "!    total energy              =" (fFixed 0 17 8 x) " Ry") = false := by
    absent "number"
  have h4 : has "the Fermi energy is".toList (numLine "!    total energy              =" (fFixed 0 17 8 x) " Ry") = false := by
    absent "Fermi"
  have h5 : has "highest occupied, lowest unoccupied level".toList (numLine "!    total energy              =" (fFixed 0 17 8 x) " Ry") =
      false := by
    absent "lowest"
  have h6 : "!".toList.isPrefixOf (numLine "!    total energy              =" (fFixed 0 17 8 x) " Ry") = true := rfl
  rw [pwoStep, if_neg (by rw [h1]; decide), if_neg (by rw [h2]; decide), if_neg (by rw [h3]; decide), if_neg (by rw [h4]; decide),
    if_neg (by rw [h5]; decide), if_pos h6, floatAt_last2 _ _ _ _ _ (by norm_num) _ (free_energy x h) ⟨"Ry", by decide⟩ "Ry".toList
    (by decide +kernel)]
  rfl

theorem step_other (Ry : ℚ) (l : Str) (v : Vars) (ls : List Str) (h : (Item.other l).Valid) : pwoStep Ry v l ls = .ok (v, ls) := by
  obtain ⟨h, h'⟩ := h
  have h1 := has_false _ _ (h "number of electrons" (by decide))
  have h2 := has_false _ _ (h "number of Kohn-Sham states" (by decide))
  have h3 := has_false _ _ (h "number of k points" (by decide))
  have h4 := has_false _ _ (h "the Fermi energy is" (by decide))
  have h5 := has_false _ _ (h "highest occupied, lowest unoccupied level" (by decide))
  have h6 : ¬ ("!".toList.isPrefixOf l = true) := by rwa [List.isPrefixOf_iff_prefix]
  have h7 := has_false _ _ (h "End of self-consistent calculation" (by decide))
  rw [pwoStep, if_neg (by rw [h1]; decide), if_neg (by rw [h2]; decide), if_neg (by rw [h3]; decide), if_neg (by rw [h4]; decide),
    if_neg (by rw [h5]; decide), if_neg h6, if_neg (by rw [h7]; decide)]

/-- Line with the highest occupied and lowest unoccupied level. -/
def levelsLine (x y : ℚ) : Str :=
  "     highest occupied, lowest unoccupied level (ev):".toList ++ (fmt [fFixed 1 10 4 x, fFixed 0 10 4 y] ++ ['\n'])

theorem has_levels (k w : String) (x y : ℚ) (hk : w.toList <:+: k.toList) (hw : ∀ c ∈ w.toList, numeric c = false)
    (ha : ¬ w.toList <:+: "     highest occupied, lowest unoccupied level (ev):".toList) (hb : ¬ w.toList <:+: ['\n']) :
    has k.toList (levelsLine x y) = false := by
  apply has_false
  intro h
  have hn : ∀ c ∈ fmt [fFixed 1 10 4 x, fFixed 0 10 4 y], numeric c = true := by
    intro c hc
    rw [show [fFixed 1 10 4 x, fFixed 0 10 4 y] = [fFixed 1 10 4 x] ++ [fFixed 0 10 4 y] from rfl, fmt_append, List.mem_append] at hc
    rcases hc with hc | hc
    · exact field_numeric _ (showFixed_numeric _ _) c hc
    · exact field_numeric _ (showFixed_numeric _ _) c hc
  have hne : fmt [fFixed 1 10 4 x, fFixed 0 10 4 y] ≠ [] := by
    rw [show [fFixed 1 10 4 x, fFixed 0 10 4 y] = [fFixed 1 10 4 x] ++ [fFixed 0 10 4 y] from rfl, fmt_append]
    exact fun e => fmt_ne _ (fixed_ne 1 10 4 x) (List.append_eq_nil_iff.1 e).1
  rcases infix_mid w.toList _ _ _ hw hne hn (hk.trans h) with h | h
  · exact ha h
  · exact hb h

theorem words_levels (x y : ℚ) (h : (Item.levels x y).Valid) : words (levelsLine x y) =
    words "     highest occupied, lowest unoccupied level (ev):".toList ++ [showFixed 4 x, showFixed 4 y] := by
  have hy : (fFixed 0 10 4 y).Free := by
    right
    show (showFixed 4 y).length < 10
    rcases le_or_gt 0 y with h0 | h0
    · have := (showFixed_length 4 4 (by norm_num) (by norm_num) y (by rw [abs_of_nonneg h0]; norm_num; exact h.2.2)).2 h0
      omega
    · have := (showFixed_length 4 3 (by norm_num) (by norm_num) y (by rw [abs_of_neg h0]; norm_num; linarith [h.2.1])).1
      omega
  have e := words_text "     highest occupied, lowest unoccupied level (ev):".toList ['\n'] [fFixed 1 10 4 x, fFixed 0 10 4 y]
    (List.cons_ne_nil _ _) (by simp [fFixed, showFixed_solid]) ?_ newline_end
  · exact e.trans (congrArg _ (List.append_nil _))
  · intro f hf
    rcases List.mem_cons.1 hf with rfl | hf
    · exact Or.inl Nat.one_pos
    · rw [List.mem_singleton.1 hf]
      exact hy

theorem step_levels (Ry x y : ℚ) (v : Vars) (ls : List Str) (h : (Item.levels x y).Valid) :
    pwoStep Ry v (levelsLine x y) ls = .ok (after Ry v (.levels x y), ls) := by
  have h1 : has "number of electrons".toList (levelsLine x y) = false :=
    has_levels _ "number" _ _ (by decide +kernel) (by decide +kernel) (by decide +kernel) (by decide +kernel)
  have h2 : has "number of Kohn-Sham states".toList (levelsLine x y) = false :=
    has_levels _ "number" _ _ (by decide +kernel) (by decide +kernel) (by decide +kernel) (by decide +kernel)
  have h3 : has "number of k points".toList (levelsLine x y) = false :=
    has_levels _ "number" _ _ (by decide +kernel) (by decide +kernel) (by decide +kernel) (by decide +kernel)
  have h4 : has "the Fermi energy is".toList (levelsLine x y) = false :=
    has_levels _ "Fermi" _ _ (by decide +kernel) (by decide +kernel) (by decide +kernel) (by decide +kernel)
  have h5 : has "highest occupied, lowest unoccupied level".toList (levelsLine x y) = true := by
    rw [has_iff]
    exact List.IsInfix.trans (by decide +kernel) (List.prefix_append _ _).isInfix
  have e : ((words (levelsLine x y)).drop ((words (levelsLine x y)).length - 2)).mapM readFloat = some [roundTo 4 x, roundTo 4 y] := by
    rw [words_levels x y h, List.length_append, List.length_cons, List.length_singleton, Nat.add_sub_cancel, List.drop_left]
    simp [readFloat_showFixed]
  rw [pwoStep, if_neg (by rw [h1]; decide), if_neg (by rw [h2]; decide), if_neg (by rw [h3]; decide), if_neg (by rw [h4]; decide),
    if_pos h5]
  simp only [e]
  simp [after]

theorem step_bands (Ry : ℚ) (b : List ((Str × Str × Str) × List ℚ)) (v : Vars) (ls : List Str) (h : (Item.bands b).Valid) (Ns : Nat)
    (hk : v.Nk = some (b.length : Int)) (hs : v.Ns = some (Ns : Int)) (hb : ∀ r ∈ b, r.2.length = Ns) :
    pwoStep Ry v ("     End of self-consistent calculation".toList ++ ['\n'])
      ((b.flatMap fun r => r.1.1 :: r.1.2.1 :: r.1.2.2 :: rows r.2) ++ ls) = .ok (after Ry v (.bands b), ls) := by
  obtain ⟨Ne, Ns', Nk, E, eF, e, given⟩ := v
  simp only at hk hs
  subst hk hs
  rw [pwoStep, if_neg (by decide +kernel), if_neg (by decide +kernel), if_neg (by decide +kernel), if_neg (by decide +kernel),
    if_neg (by decide +kernel), if_neg (by decide +kernel), if_pos (by decide +kernel), bandStep]
  simp only [Int.toNat_natCast]
  rw [kLoop_ok Ns b h hb]
  rfl

/-! ### Loop -/

/-- Numbers of k points and states so far. -/
def Knows (v : Vars) (Nk Ns : Option Nat) : Prop :=
  v.Nk = Nk.map (fun n : Nat => (n : Int)) ∧ v.Ns = Ns.map (fun n : Nat => (n : Int))

theorem loop_items (Ry : ℚ) (l : List Item) (hv : ∀ i ∈ l, i.Valid) (v : Vars) (Nk Ns : Option Nat) (hc : Consistent Nk Ns l)
    (hk : Knows v Nk Ns) (fuel : Nat) (hf : (output l).length ≤ fuel) :
    pwoLoop Ry fuel v (output l) = .ok (l.foldl (after Ry) v) := by
  induction l generalizing v Nk Ns fuel with
  | nil => cases fuel <;> rfl
  | cons i l ih =>
    have hi := hv i (by simp)
    have hv' : ∀ i ∈ l, i.Valid := fun i hi => hv i (by simp [hi])
    have eo : output (i :: l) = i.lines ++ output l := List.flatMap_cons
    obtain ⟨line, more, hl⟩ : ∃ line more, i.lines = line :: more := by
      cases i <;> exact ⟨_, _, rfl⟩
    rw [eo, hl, List.cons_append] at hf ⊢
    obtain ⟨f, rfl⟩ : ∃ f, fuel = f + 1 := ⟨fuel - 1, by simp at hf; omega⟩
    rw [List.foldl_cons, pwoLoop]
    have hf' : (output l).length ≤ f := by
      simp at hf
      omega
    suffices h : pwoStep Ry v line (more ++ output l) = .ok (after Ry v i, output l) ∧
        ∃ Nk' Ns', Consistent Nk' Ns' l ∧ Knows (after Ry v i) Nk' Ns' by
      obtain ⟨h, Nk', Ns', h1, h2⟩ := h
      rw [h]
      exact ih hv' _ _ _ h1 h2 f hf'
    cases i with
    | electrons x =>
      cases hl
      exact ⟨step_electrons _ _ _ _, Nk, Ns, hc, hk⟩
    | states n =>
      cases hl
      exact ⟨step_states _ _ _ _, Nk, some n, hc, hk.1, rfl⟩
    | kpoints n s =>
      cases hl
      exact ⟨step_kpoints _ _ _ _ _ hi, some n, Ns, hc, rfl, hk.2⟩
    | fermi x =>
      cases hl
      exact ⟨step_fermi _ _ _ _, Nk, Ns, hc, hk⟩
    | levels x y =>
      cases hl
      exact ⟨step_levels _ _ _ _ _ hi, Nk, Ns, hc, hk⟩
    | level x =>
      cases hl
      exact ⟨step_level _ _ _ _, Nk, Ns, hc, hk⟩
    | energy x =>
      cases hl
      exact ⟨step_energy _ _ _ _ hi, Nk, Ns, hc, hk⟩
    | bands b =>
      cases hl
      obtain ⟨c1, c2, c3, c4⟩ := hc
      obtain ⟨n, rfl⟩ := Option.ne_none_iff_exists'.1 c3
      refine ⟨step_bands _ _ _ _ hi n (hk.1.trans (by rw [c1]; rfl)) hk.2 fun r hr => (Option.some.inj (c2 r hr)).symm, Nk, some n, c4, hk⟩
    | other s =>
      cases hl
      exact ⟨step_other _ _ _ _ hi, Nk, Ns, hc, hk⟩

/-! ### Result -/

theorem last_cons {β : Type} (f : Item → Option β) (i : Item) (l : List Item) : last f (i :: l) = (last f l).or (f i) := by
  unfold last
  rw [List.filterMap_cons]
  cases h : f i with
  | none => simp
  | some x =>
    simp only
    rw [List.getLast?_cons]
    cases (List.filterMap f l).getLast? <;> rfl

theorem fold_Ne (Ry : ℚ) (l : List Item) (v : Vars) :
    (l.foldl (after Ry) v).Ne = ((last Item.electrons? l).map (roundTo 2)).or v.Ne := by
  induction l generalizing v with
  | nil => rfl
  | cons i l ih =>
    rw [List.foldl_cons, ih, last_cons]
    cases last Item.electrons? l <;> cases i <;> rfl

theorem fold_E (Ry : ℚ) (l : List Item) (v : Vars) :
    (l.foldl (after Ry) v).E = ((last Item.energy? l).map fun x => roundTo 8 x * Ry).or v.E := by
  induction l generalizing v with
  | nil => rfl
  | cons i l ih =>
    rw [List.foldl_cons, ih, last_cons]
    cases last Item.energy? l <;> cases i <;> rfl

theorem fold_eF (Ry : ℚ) (l : List Item) (v : Vars) : (l.foldl (after Ry) v).eF = (last Item.fermi? l).or v.eF := by
  induction l generalizing v with
  | nil => rfl
  | cons i l ih =>
    rw [List.foldl_cons, ih, last_cons]
    cases last Item.fermi? l <;> cases i <;> rfl

theorem fold_e (Ry : ℚ) (l : List Item) (v : Vars) :
    ((l.foldl (after Ry) v).e, (l.foldl (after Ry) v).given) =
      (((last Item.bands? l).map fun e => (e.map fun r => r.map (roundTo 4), true)).getD (v.e, v.given)) := by
  induction l generalizing v with
  | nil => rfl
  | cons i l ih =>
    rw [List.foldl_cons, ih, last_cons]
    cases last Item.bands? l <;> cases i <;> simp [after, Item.bands?]

theorem consistent_length (l : List Item) (Nk Ns : Option Nat) (h : Consistent Nk Ns l) (e : List (List ℚ))
    (he : last Item.bands? l = some e) : ∃ n, ∀ r ∈ e, r.length = n := by
  induction l generalizing Nk Ns with
  | nil => exact absurd he (by simp [last])
  | cons i l ih =>
    rw [last_cons] at he
    cases hb : last Item.bands? l with
    | some e' =>
      rw [hb, Option.some_or] at he
      cases he
      cases i with
      | bands b => exact ih _ _ h.2.2.2 hb
      | _ => exact ih _ _ h hb
    | none =>
      rw [hb, Option.none_or] at he
      cases i with
      | bands b =>
        cases he
        obtain ⟨-, h2, h3, -⟩ := h
        obtain ⟨n, rfl⟩ := Option.ne_none_iff_exists'.1 h3
        refine ⟨n, fun r hr => ?_⟩
        obtain ⟨x, hx, rfl⟩ := List.mem_map.1 hr
        exact (Option.some.inj (h2 x hx)).symm
      | _ => exact absurd he (by simp [Item.bands?])

theorem shift_ok (e : List (List ℚ)) (eF : ℚ) (n : Nat) (h : ∀ r ∈ e, r.length = n) :
    shift e eF = .ok (e.map fun r => r.map fun x => x - eF) := by
  rw [shift, if_pos]
  rw [List.all_eq_true]
  intro r hr
  cases e with
  | nil => simp at hr
  | cons a e => exact decide_eq_true ((h r hr).trans (h a (by simp)).symm)

theorem readPwo_items (Ry : ℚ) (l : List Item) (hv : ∀ i ∈ l, i.Valid) (hc : Consistent none none l) :
    readPwo Ry (output l) = pwoResult (l.foldl (after Ry) .init) := by
  rw [readPwo, loop_items Ry l hv .init none none hc ⟨rfl, rfl⟩ _ le_rfl]
  rfl

/-- **C129**: `read_pwo` returns the last energies of the output in the order of the file, relative to the last Fermi level, the last
number of electrons and the last total energy in electronvolts. -/
theorem C129_partial (Ry : ℚ) (l : List Item) (hv : ∀ i ∈ l, i.Valid) (hc : Consistent none none l) (e : List (List ℚ)) (eF : ℚ)
    (he : last Item.bands? l = some e) (hF : last Item.fermi? l = some eF) :
    readPwo Ry (output l) = .ok (some (e.map fun r => r.map fun x => roundTo 4 x - eF), (last Item.electrons? l).map (roundTo 2),
      (last Item.energy? l).map fun x => roundTo 8 x * Ry) := by
  rw [readPwo_items Ry l hv hc, pwoResult]
  have h1 := fold_e Ry l .init
  rw [he, Option.map_some, Option.getD_some] at h1
  obtain ⟨n, hn⟩ := consistent_length l _ _ hc e he
  rw [show (l.foldl (after Ry) .init).given = true from congrArg Prod.snd h1, if_pos rfl, fold_eF, hF, Option.some_or]
  simp only
  rw [show (l.foldl (after Ry) .init).e = _ from congrArg Prod.fst h1, shift_ok _ _ n, fold_Ne, fold_E]
  · simp only [Except.map, List.map_map]
    congr 3
    · congr 1
      funext r
      simp
    · simp [Vars.init]
    · simp [Vars.init]
  · intro r hr
    obtain ⟨s, hs, rfl⟩ := List.mem_map.1 hr
    rw [List.length_map]
    exact hn s hs

/-- **C129**: If there are no energies in the output, the first result is `None`. -/
theorem C129_none (Ry : ℚ) (l : List Item) (hv : ∀ i ∈ l, i.Valid) (hc : Consistent none none l) (he : last Item.bands? l = none) :
    readPwo Ry (output l) = .ok (none, (last Item.electrons? l).map (roundTo 2), (last Item.energy? l).map fun x => roundTo 8 x * Ry) := by
  rw [readPwo_items Ry l hv hc, pwoResult]
  have h1 := fold_e Ry l .init
  rw [he] at h1
  rw [show (l.foldl (after Ry) .init).given = false from congrArg Prod.snd h1, if_neg (by decide), fold_Ne, fold_E]
  simp [Vars.init]

/-- **C129** fails for insulators: For any output with energies but only the highest occupied level instead of the Fermi level (as
written for fixed occupations without empty bands), there is an exception, because a variable is not defined. -/
theorem C129_insulator_violated (Ry : ℚ) (l : List Item) (hv : ∀ i ∈ l, i.Valid) (hc : Consistent none none l)
    (he : last Item.bands? l ≠ none) (hF : last Item.fermi? l = none) : readPwo Ry (output l) = .error .other := by
  obtain ⟨e, he⟩ := Option.ne_none_iff_exists'.1 he
  rw [readPwo_items Ry l hv hc, pwoResult]
  have h1 := fold_e Ry l .init
  rw [he, Option.map_some, Option.getD_some] at h1
  rw [show (l.foldl (after Ry) .init).given = true from congrArg Prod.snd h1, if_pos rfl, fold_eF, hF]
  rfl

/-! ### `read_Fermi_level` -/

theorem levelStep_none (line : Str) (eF : Option ℚ) (h1 : ¬ "the Fermi energy is".toList <:+: line)
    (h2 : ¬ "highest occupied level".toList <:+: line) : levelStep eF line = .ok eF := by
  rw [levelStep, if_neg (by rw [has_false _ _ h1]; decide), if_neg (by rw [has_false _ _ h2]; decide)]

theorem infix_colon (w A X : Str) (c : Char) (hA : A.getLast? = some c) (hw : c ∉ w) (h : w <:+: A ++ X) : w <:+: A ∨ w <:+: X := by
  rcases List.infix_append_iff.1 h with h | h | ⟨l1, l2, rfl, h1, h2⟩
  · exact Or.inl h
  · exact Or.inr h
  · rcases List.eq_nil_or_concat l1 with rfl | ⟨u, d, rfl⟩
    · exact Or.inr h2.isInfix
    · obtain ⟨t, rfl⟩ := h1
      rw [List.concat_eq_append, ← List.append_assoc, List.getLast?_concat] at hA
      cases hA
      exact absurd (by simp) hw

theorem levelStep_levels (x y : ℚ) (eF : Option ℚ) : levelStep eF (levelsLine x y) = .ok eF := by
  have h4 : has "the Fermi energy is".toList (levelsLine x y) = false :=
    has_levels _ "Fermi" _ _ (by decide +kernel) (by decide +kernel) (by decide +kernel) (by decide +kernel)
  refine levelStep_none _ _ (fun h => ?_) fun h => ?_
  · rw [← has_iff, h4] at h
    exact absurd h (by decide)
  · rcases infix_colon _ _ _ ':' (by decide +kernel) (by decide +kernel) h with h | h
    · exact absurd h (by decide +kernel)
    · have hc : 'h' ∈ fmt [fFixed 1 10 4 x, fFixed 0 10 4 y] ++ ['\n'] := h.mem (by decide +kernel)
      rw [show [fFixed 1 10 4 x, fFixed 0 10 4 y] = [fFixed 1 10 4 x] ++ [fFixed 0 10 4 y] from rfl, fmt_append] at hc
      simp only [List.mem_append] at hc
      rcases hc with (hc | hc) | hc
      · exact absurd (field_numeric _ (showFixed_numeric _ _) _ hc) (by decide)
      · exact absurd (field_numeric _ (showFixed_numeric _ _) _ hc) (by decide)
      · exact absurd hc (by decide)

theorem fmt_numeric (l : List Field) (h : ∀ f ∈ l, ∀ c ∈ f.text, numeric c = true) : ∀ c ∈ fmt l, numeric c = true := by
  induction l with
  | nil => simp [fmt]
  | cons f l ih =>
    intro c hc
    rw [show f :: l = [f] ++ l from rfl, fmt_append, List.mem_append] at hc
    rcases hc with hc | hc
    · exact field_numeric f (h f (by simp)) c hc
    · exact ih (fun f hf => h f (by simp [hf])) c hc

theorem row_absent (l : List ℚ) (k : Str) (c : Char) (hc : c ∈ k) (h : numeric c = false) (h' : c ≠ '\n') :
    ¬ k <:+: "  ".toList ++ (fmt (l.map (fFixed 0 9 4)) ++ ['\n']) := by
  intro hk
  have := hk.mem hc
  simp only [List.mem_append, List.mem_singleton] at this
  rcases this with h1 | h1 | h1
  · have : c = ' ' := by simpa using h1
    rw [this] at h
    exact absurd h (by decide)
  · rw [fmt_numeric _ _ c h1] at h
    · exact absurd h (by decide)
    · intro f hf
      obtain ⟨x, -, rfl⟩ := List.mem_map.1 hf
      exact showFixed_numeric _ _
  · exact h' h1

theorem levelLoop_skip (l rest : List Str) (eF : Option ℚ) (h : ∀ s ∈ l, ¬ "the Fermi energy is".toList <:+: s ∧
    ¬ "highest occupied level".toList <:+: s) : levelLoop eF (l ++ rest) = levelLoop eF rest := by
  induction l with
  | nil => rfl
  | cons s l ih =>
    rw [List.cons_append, levelLoop, levelStep_none s eF (h s (by simp)).1 (h s (by simp)).2]
    exact ih fun s hs => h s (by simp [hs])

/-- The lines before the energies of a k point, `k = ...` between blank lines, do not mention levels. -/
def Item.Plain : Item → Prop
  | .bands b => ∀ r ∈ b, ∀ s ∈ [r.1.1, r.1.2.1, r.1.2.2], ¬ "the Fermi energy is".toList <:+: s ∧
      ¬ "highest occupied level".toList <:+: s
  | _ => True

theorem level_items (l : List Item) (hv : ∀ i ∈ l, i.Valid) (hb : ∀ i ∈ l, i.Plain) (eF : Option ℚ) :
    levelLoop eF (output l) = .ok ((last Item.level? l).or eF) := by
  induction l generalizing eF with
  | nil => rfl
  | cons i l ih =>
    have ih := ih (fun i hi => hv i (by simp [hi])) fun i hi => hb i (by simp [hi])
    have hv := hv i (by simp)
    have hb := hb i (by simp)
    have eo : output (i :: l) = i.lines ++ output l := List.flatMap_cons
    rw [eo, last_cons]
    suffices h : levelLoop eF (i.lines ++ output l) = levelLoop ((i.level?).or eF) (output l) by
      rw [h, ih]
      cases last Item.level? l <;> cases i.level? <;> rfl
    have one : ∀ line, i.lines = [line] → levelStep eF line = .ok ((i.level?).or eF) →
        levelLoop eF (i.lines ++ output l) = levelLoop ((i.level?).or eF) (output l) := by
      intro line h1 h2
      rw [h1, List.singleton_append, levelLoop, h2]
      rfl
    cases i with
    | electrons x =>
      refine one _ rfl ?_
      have h1 : has "the Fermi energy is".toList (numLine "     number of electrons       =" (fFixed 1 12 2 x) "") = false := by
        absent "Fermi"
      have h2 : has "highest occupied level".toList (numLine "     number of electrons       =" (fFixed 1 12 2 x) "") = false := by
        absent "highest"
      rw [levelStep, if_neg (by rw [h1]; decide), if_neg (by rw [h2]; decide)]
      rfl
    | states n =>
      refine one _ rfl ?_
      have h1 : has "the Fermi energy is".toList (numLine "     number of Kohn-Sham states=" (fInt 1 12 n) "") = false :=
        has_num _ "Fermi" _ _ _ (int_ne _ _ _) (showInt_numeric (n : Int)) (by decide +kernel) (by decide +kernel) (by decide +kernel)
          (by decide +kernel)
      have h2 : has "highest occupied level".toList (numLine "     number of Kohn-Sham states=" (fInt 1 12 n) "") = false :=
        has_num _ "highest" _ _ _ (int_ne _ _ _) (showInt_numeric (n : Int)) (by decide +kernel) (by decide +kernel) (by decide +kernel)
          (by decide +kernel)
      rw [levelStep, if_neg (by rw [h1]; decide), if_neg (by rw [h2]; decide)]
      rfl
    | kpoints n s =>
      refine one _ rfl ?_
      obtain ⟨-, -, -, -, v1, v2⟩ := hv
      have h1 : has "the Fermi energy is".toList (numLine "     number of k points=" (fInt 0 6 n) s) = false :=
        has_num _ "energy" _ _ _ (int_ne _ _ _) (showInt_numeric (n : Int)) (by decide +kernel) (by decide +kernel) (by decide +kernel)
          (infix_newline _ _ (by decide) v1)
      have h2 : has "highest occupied level".toList (numLine "     number of k points=" (fInt 0 6 n) s) = false :=
        has_num _ "highest" _ _ _ (int_ne _ _ _) (showInt_numeric (n : Int)) (by decide +kernel) (by decide +kernel) (by decide +kernel)
          (infix_newline _ _ (by decide) v2)
      rw [levelStep, if_neg (by rw [h1]; decide), if_neg (by rw [h2]; decide)]
      rfl
    | fermi x =>
      refine one _ rfl ?_
      rw [levelStep, if_pos (has_self _ _ _ _ (by decide +kernel)), floatAt_last2 _ _ _ _ _ (by norm_num) _ (Or.inl Nat.one_pos)
        ⟨"ev", by decide⟩ "ev".toList (by decide +kernel)]
      rfl
    | levels x y =>
      refine one _ rfl ?_
      exact levelStep_levels x y eF
    | level x =>
      refine one _ rfl ?_
      have h1 : has "the Fermi energy is".toList (numLine "     highest occupied level (ev):" (fFixed 1 10 4 x) "") = false := by
        absent "Fermi"
      rw [levelStep, if_neg (by rw [h1]; decide), if_pos (has_self _ _ _ _ (by decide +kernel)),
        floatAt_last _ _ _ _ (by norm_num) _ (Or.inl Nat.one_pos)]
      rfl
    | energy x =>
      refine one _ rfl ?_
      have h1 : has "the Fermi energy is".toList (numLine "!    total energy              =" (fFixed 0 17 8 x) " Ry") = false := by
        absent "Fermi"
      have h2 : has "highest occupied level".toList (numLine "!    total energy              =" (fFixed 0 17 8 x) " Ry") = false := by
        absent "highest"
      rw [levelStep, if_neg (by rw [h1]; decide), if_neg (by rw [h2]; decide)]
      rfl
    | bands b =>
      refine levelLoop_skip _ _ _ fun s hs => ?_
      rcases List.mem_cons.1 hs with rfl | hs
      · exact ⟨by decide +kernel, by decide +kernel⟩
      · obtain ⟨r, hr, hs⟩ := List.mem_flatMap.1 hs
        have hs' : s ∈ [r.1.1, r.1.2.1, r.1.2.2] ++ rows r.2 := hs
        rcases List.mem_append.1 hs' with hs | hs
        · exact hb r hr s hs
        · obtain ⟨j, -, rfl⟩ := List.mem_map.1 hs
          exact ⟨row_absent _ _ 't' (by decide) (by decide) (by decide), row_absent _ _ 'h' (by decide) (by decide) (by decide)⟩
    | other s =>
      refine one _ rfl ?_
      exact levelStep_none _ _ (hv.1 _ (by decide)) (hv.1 _ (by decide))

/-- **C129**: `read_Fermi_level` returns the last Fermi level or highest occupied level in the output, `None` if there is none. -/
theorem C129_level (l : List Item) (hv : ∀ i ∈ l, i.Valid) (hb : ∀ i ∈ l, i.Plain) :
    readFermiLevel (output l) = .ok (last Item.level? l) := by
  rw [readFermiLevel, level_items l hv hb, Option.or_none]

/-! ### Examples -/

/-- Output for two k points and nine states, followed by a second self-consistent calculation. -/
def sample : List Item :=
  [.other "     Program PWSCF v.6.4 starts\n".toList, .electrons 13, .states 9, .kpoints 2 "  Fermi-Dirac smearing, width (Ry)=  0.0050",
    .bands [((['\n'], "          k = 0.0000 0.0000 0.0000 (   113 PWs)   bands (ev):\n".toList, ['\n']), [-10, -9, -8, 1, 2, 3, 4, 5, 1 / 8]),
      ((['\n'], ['\n'], ['\n']), [-99, 1, 1, 1, 1, 1, 1, 1, 999])],
    .fermi (3 / 2), .energy (-22), .bands [((['\n'], ['\n'], ['\n']), [-1, 1, 1, 1, 1, 1, 1, 1, 1]), ((['\n'], ['\n'], ['\n']), [-2, 1, 1, 1, 1, 1, 1, 1, 1])],
    .fermi (5 / 2), .energy (-24)]

theorem sample_valid : ∀ i ∈ sample, i.Valid := by
  intro i hi
  simp only [sample, List.mem_cons, List.not_mem_nil, or_false] at hi
  rcases hi with rfl | rfl | rfl | rfl | rfl | rfl | rfl | rfl | rfl | rfl
  · exact ⟨by decide +kernel, by decide +kernel⟩
  · norm_num [Item.Valid]
  · norm_num [Item.Valid]
  · exact ⟨by norm_num, Or.inr ⟨" Fermi-Dirac smearing, width (Ry)=  0.0050", by decide⟩, by decide +kernel, by decide +kernel, by decide +kernel,
      by decide +kernel⟩
  · norm_num [Item.Valid]
  · norm_num [Item.Valid]
  · norm_num [Item.Valid]
  · norm_num [Item.Valid]
  · norm_num [Item.Valid]
  · norm_num [Item.Valid]

theorem sample_consistent : Consistent none none sample := by simp [sample, Consistent]

example (Ry : ℚ) : ∃ e Ne E, readPwo Ry (output sample) = .ok (some e, Ne, E) ∧ e.map (fun r => r.head?) =
    [some (roundTo 4 (-1) - roundTo 4 (5 / 2)), some (roundTo 4 (-2) - roundTo 4 (5 / 2))] := by
  refine ⟨_, _, _, C129_partial Ry sample sample_valid sample_consistent _ _ rfl rfl, rfl⟩

example : readFermiLevel (output sample) = .ok (some (roundTo 4 (5 / 2))) :=
  C129_level sample sample_valid fun i hi => by
    simp only [sample, List.mem_cons, List.not_mem_nil, or_false] at hi
    rcases hi with rfl | rfl | rfl | rfl | rfl | rfl | rfl | rfl | rfl | rfl <;> first | trivial | skip
    · exact fun r hr s hs => by fin_cases hr <;> fin_cases hs <;> decide +kernel
    · exact fun r hr s hs => by fin_cases hr <;> fin_cases hs <;> decide +kernel

/-- Without energies. -/
example (Ry : ℚ) : readPwo Ry (output [.electrons 8, .energy (-22)]) = .ok (none, some (roundTo 2 8), some (roundTo 8 (-22) * Ry)) :=
  C129_none Ry _ (by simp [Item.Valid]; norm_num) (by simp [Consistent]) rfl

/-- An insulator. -/
example (Ry : ℚ) : readPwo Ry (output [.electrons 8, .states 1, .kpoints 1 "", .bands [((['\n'], ['\n'], ['\n']), [-1])], .level (-1),
    .energy (-22)]) = .error .other :=
  C129_insulator_violated Ry _ (by
    intro i hi
    simp only [List.mem_cons, List.not_mem_nil, or_false] at hi
    rcases hi with rfl | rfl | rfl | rfl | rfl | rfl
    · norm_num [Item.Valid]
    · norm_num [Item.Valid]
    · exact ⟨by norm_num, Or.inl rfl, by decide +kernel, by decide +kernel, by decide +kernel, by decide +kernel⟩
    · norm_num [Item.Valid]
    · norm_num [Item.Valid]
    · norm_num [Item.Valid]) (by simp [Consistent]) (by simp [last, Item.bands?]) rfl

theorem deep_row : (words ("  ".toList ++ (fmt ([-1201 / 10, -1201 / 10].map (fFixed 0 9 4)) ++ ['\n']))).mapM readFloat = none := by
  decide +kernel

/-- **C129** fails for bands below -100 eV: the columns touch each other and `None` is returned. -/
theorem C129_deep_violated (Ry : ℚ) : ∃ l : List Item, Consistent none none l ∧ last Item.bands? l = some [[-1201 / 10, -1201 / 10]] ∧
    last Item.fermi? l ≠ none ∧ (∃ N E, readPwo Ry (output l) = .ok (none, N, E)) := by
  refine ⟨[.states 2, .kpoints 1 "", .bands [((['\n'], ['\n'], ['\n']), [-1201 / 10, -1201 / 10])], .fermi 0], ?_, rfl,
    by simp [last, Item.fermi?], none, none, ?_⟩
  · simp [Consistent]
  · have h := step_kpoints Ry 1 "" (after Ry .init (.states 2)) (output [.bands [((['\n'], ['\n'], ['\n']), [-1201 / 10, -1201 / 10])],
      .fermi 0]) ⟨by norm_num, Or.inl rfl, by decide +kernel, by decide +kernel, by decide +kernel, by decide +kernel⟩
    have hb : pwoStep Ry (after Ry (after Ry .init (.states 2)) (.kpoints 1 "")) ("     End of self-consistent calculation".toList ++ ['\n'])
        (['\n'] :: ['\n'] :: ['\n'] :: (rows [-1201 / 10, -1201 / 10] ++ output [.fermi 0])) =
        .ok ({ after Ry (after Ry .init (.states 2)) (.kpoints 1 "") with e := [[]] }, output [.fermi 0]) := by
      rw [pwoStep, if_neg (by decide +kernel), if_neg (by decide +kernel), if_neg (by decide +kernel), if_neg (by decide +kernel),
        if_neg (by decide +kernel), if_neg (by decide +kernel), if_pos (by decide +kernel)]
      have e : rowLoop 2 [] (rows [-1201 / 10, -1201 / 10] ++ output [.fermi 0]) = .error (.value, [], output [.fermi 0]) := by
        have er : rows [-1201 / 10, -1201 / 10] = ["  ".toList ++ (fmt ([-1201 / 10, -1201 / 10].map (fFixed 0 9 4)) ++ ['\n'])] := rfl
        rw [er, List.singleton_append, rowLoop, if_pos (by decide), deep_row]
      have ek : kLoop 2 1 [] (['\n'] :: ['\n'] :: ['\n'] :: (rows [-1201 / 10, -1201 / 10] ++ output [.fermi 0])) =
          .error (.value, [[]], output [.fermi 0]) := by
        rw [kLoop, if_neg (by simp)]
        simp only [List.drop_succ_cons, List.drop_zero, e]
        rfl
      simp only [bandStep, after]
      rw [show ((1 : Nat) : Int).toNat = 1 from rfl, show ((2 : Nat) : Int) = 2 from rfl, ek]
    have h1 := step_states Ry 2 .init (output [.kpoints 1 "", .bands [((['\n'], ['\n'], ['\n']), [-1201 / 10, -1201 / 10])], .fermi 0])
    have h4 := step_fermi Ry 0 { after Ry (after Ry .init (.states 2)) (.kpoints 1 "") with e := [[]] } []
    rw [readPwo]
    have el : (output [.states 2, .kpoints 1 "", .bands [((['\n'], ['\n'], ['\n']), [-1201 / 10, -1201 / 10])], .fermi 0]).length = 8 := rfl
    rw [el]
    have eo : output [.states 2, .kpoints 1 "", .bands [((['\n'], ['\n'], ['\n']), [-1201 / 10, -1201 / 10])], .fermi 0] =
        numLine "     number of Kohn-Sham states=" (fInt 1 12 2) "" :: output [.kpoints 1 "", .bands [((['\n'], ['\n'], ['\n']),
          [-1201 / 10, -1201 / 10])], .fermi 0] := rfl
    have eo2 : output [.kpoints 1 "", .bands [((['\n'], ['\n'], ['\n']), [-1201 / 10, -1201 / 10])], .fermi 0] =
        numLine "     number of k points=" (fInt 0 6 1) "" :: output [.bands [((['\n'], ['\n'], ['\n']), [-1201 / 10, -1201 / 10])],
          .fermi 0] := rfl
    have eo3 : output [.bands [((['\n'], ['\n'], ['\n']), [-1201 / 10, -1201 / 10])], .fermi 0] =
        ("     End of self-consistent calculation".toList ++ ['\n']) ::
          (['\n'] :: ['\n'] :: ['\n'] :: (rows [-1201 / 10, -1201 / 10] ++ output [.fermi 0])) := rfl
    rw [eo, pwoLoop, show ((fInt 1 12 2)) = fInt 1 12 (2 : Nat) from rfl, h1]
    show (pwoLoop Ry 7 _ _ >>= pwoResult) = _
    rw [eo2, pwoLoop, show ((fInt 0 6 1)) = fInt 0 6 (1 : Nat) from rfl, h]
    show (pwoLoop Ry 6 _ _ >>= pwoResult) = _
    rw [eo3, pwoLoop, hb]
    show (pwoLoop Ry 5 _ (numLine "     the Fermi energy is" (fFixed 1 10 4 0) " ev" :: []) >>= pwoResult) = _
    rw [pwoLoop, h4]
    rfl

end Verif.Pwo
