import Verif.ElInit.Props
import Verif.Text.HrDat

/-!
# Property C179: saving and loading a tight-binding model (`Model.to_hrdat` and `Model.__init__` in `elphmod/el.py`)
-/

namespace Verif.ElInit.Save

open Verif.Text
open Verif.Lattice (V3)
open Verif.TB (lexLe lexLe_trans lexLe_total)

/-! ### Model -/

/-- Attributes `R` and `data` of a model, the numbers of which are those written to the file. -/
abbrev Data := List (V3 × (Nat → Nat → ℚ × ℚ))

/-- The same as complex matrices. -/
noncomputable def matrices (size : Nat) (m : Data) : List (Vec × Mat size) := m.map fun e => (e.1, fun a b => ⟨((e.2 a b).1 : ℚ), ((e.2 a b).2 : ℚ)⟩)

/-- `elphmod/el.py` 590-600 (`Model.to_hrdat`): content of the file; degeneracies are one by default (719-720). -/
def toHrdat (date : Str) (size : Nat) (Ry : ℚ) (rydberg : Bool) (m : Data) : Str :=
  writeHr date size (m.map fun e => ⟨e.1, 1, fun a b => if rydberg then ((e.2 a b).1 * Ry, (e.2 a b).2 * Ry) else e.2 a b⟩)

/-- Array from `read_hrdat`. (Elements are always set, see C48.) -/
def array (out : List (V3 × Elements)) : Data := out.map fun o => (o.1, fun a b => (o.2 a b).getD (0, 0))

/-- `elphmod/el.py` 166-247 (`Model.__init__`) for the contents of *_hr.dat* and *_wsvec.dat* files: number of orbitals, lattice vectors, and matrices. -/
noncomputable def load (Ry : ℚ) (hr : Str) (wsvec : Option (List Str)) (divideNdegen rydberg : Bool) : Option ((n : Nat) × List (Vec × Mat n)) :=
  match readHr divideNdegen hr with
  | some (n, out) => (init (Ry : ℝ) (matrices n (array out)) wsvec divideNdegen rydberg).map fun r => ⟨n, r.1⟩
  | none => none

/-! ### Specification -/

/-- Unit of energy in eV. -/
def unit (Ry : ℚ) (rydberg : Bool) : ℚ := if rydberg then Ry else 1

/-- Numbers fit into the columns. -/
structure Fits (Ry : ℚ) (rydberg : Bool) (size : Nat) (e : V3 × (Nat → Nat → ℚ × ℚ)) : Prop where
  R : (-10 ^ 3 < e.1.2.1 ∧ e.1.2.1 < 10 ^ 4) ∧ (-10 ^ 3 < e.1.2.2 ∧ e.1.2.2 < 10 ^ 4)
  H : ∀ a < size, ∀ b < size, |(e.2 a b).1 * unit Ry rydberg| ≤ 999 ∧ |(e.2 a b).2 * unit Ry rydberg| ≤ 999

/-! ### Lemmas -/

/-- What is written and read again. -/
def rounded (Ry : ℚ) (rydberg rydberg' : Bool) (e : V3 × (Nat → Nat → ℚ × ℚ)) : V3 × (Nat → Nat → ℚ × ℚ) :=
  (e.1, fun a b => (roundTo 6 ((e.2 a b).1 * unit Ry rydberg) / unit Ry rydberg', roundTo 6 ((e.2 a b).2 * unit Ry rydberg) / unit Ry rydberg'))

/-- Order of lattice vectors. -/
def sorted (m : Data) : Data := m.mergeSort fun e e' => lexLe e.1 e'.1

theorem sorted_perm (m : Data) : (sorted m).Perm m := List.mergeSort_perm _ _

theorem sorted_pairwise (m : Data) : (sorted m).Pairwise fun e e' => lexLe e.1 e'.1 = true :=
  List.pairwise_mergeSort (fun a b c => lexLe_trans a.1 b.1 c.1) (fun a b => lexLe_total a.1 b.1) m

theorem sorted_map (m : Data) (f : V3 × (Nat → Nat → ℚ × ℚ) → HrEntry) (hf : ∀ e, (f e).R = e.1) : hrOrder (m.map f) = (sorted m).map f := by
  unfold hrOrder sorted
  rw [List.map_mergeSort]
  intro a _ b _
  rw [hf, hf]

theorem sorted_rounded (Ry : ℚ) (r r' : Bool) (m : Data) : sorted ((sorted m).map (rounded Ry r r')) = (sorted m).map (rounded Ry r r') := by
  refine List.mergeSort_of_pairwise ?_
  rw [List.pairwise_map]
  exact sorted_pairwise m

theorem roundTo_abs (x : ℚ) (h : |x| ≤ 999) : |roundTo 6 x| ≤ 999 := by
  obtain ⟨n, hn⟩ : ∃ n : ℤ, roundTo 6 x = n / 10 ^ 6 := by
    unfold roundTo
    split
    · exact ⟨-roundEven (|x| * 10 ^ 6), by push_cast; ring⟩
    · exact ⟨roundEven (|x| * 10 ^ 6), by ring⟩
  have h1 := roundTo_near 6 x
  rw [hn] at h1 ⊢
  rw [abs_le] at h h1 ⊢
  have h2 : (n : ℚ) < 999 * 10 ^ 6 + 1 := by norm_num at h1 ⊢; linarith [h1.2, h.2]
  have h3 : -(999 * 10 ^ 6 + 1) < (n : ℚ) := by norm_num at h1 ⊢; linarith [h1.1, h.1]
  have h4 : n < 999 * 10 ^ 6 + 1 := by exact_mod_cast h2
  have h5 : -(999 * 10 ^ 6 + 1) < n := by exact_mod_cast h3
  have h6 : (n : ℚ) ≤ 999 * 10 ^ 6 := by exact_mod_cast Int.lt_add_one_iff.1 h4
  have h7 : -(999 * 10 ^ 6) ≤ (n : ℚ) := by
    have : -(999 * 10 ^ 6) ≤ n := by omega
    exact_mod_cast this
  constructor <;> norm_num at h6 h7 ⊢ <;> linarith

theorem roundTo_roundTo (x : ℚ) : roundTo 6 (roundTo 6 x) = roundTo 6 x := by
  obtain ⟨n, hn⟩ : ∃ n : ℤ, roundTo 6 x = n / 10 ^ 6 := by
    unfold roundTo
    split
    · exact ⟨-roundEven (|x| * 10 ^ 6), by push_cast; ring⟩
    · exact ⟨roundEven (|x| * 10 ^ 6), by ring⟩
  rw [hn, roundTo_exact]

theorem unit_pos {Ry : ℚ} (hRy : 0 < Ry) (r : Bool) : 0 < unit Ry r := by
  cases r
  · exact one_pos
  · exact hRy

theorem converted_array (Ry : ℚ) (r r' : Bool) (size : Nat) (l : Data) (out : List (V3 × Elements))
    (h : List.Forall₂ (fun (e : V3 × (Nat → Nat → ℚ × ℚ)) (o : V3 × Elements) => o.1 = e.1 ∧ ∀ a < size, ∀ b < size,
      o.2 a b = some (roundTo 6 ((e.2 a b).1 * unit Ry r), roundTo 6 ((e.2 a b).2 * unit Ry r))) l out) :
    converted (Ry : ℝ) r' (matrices size (array out)) = matrices size (l.map (rounded Ry r r')) := by
  induction h with
  | nil => rfl
  | @cons e o l out h _ ih =>
    have e1 : converted (Ry : ℝ) r' (matrices size (array (o :: out))) = ((o.1, fun a b => (⟨(((o.2 a b).getD (0, 0)).1 : ℚ), (((o.2 a b).getD (0, 0)).2 : ℚ)⟩ : ℂ) *
        (if r' then (((Ry : ℝ)⁻¹ : ℝ) : ℂ) else 1)) : Vec × Mat size) :: converted (Ry : ℝ) r' (matrices size (array out)) := rfl
    rw [e1, ih]
    refine congrArg₂ List.cons (Prod.ext h.1 ?_) rfl
    funext a b
    simp only [h.2 a a.2 b b.2, Option.getD_some, rounded, unit]
    cases r' with
    | true =>
      simp only [if_true]
      apply Complex.ext
      · rw [Complex.re_mul_ofReal]
        push_cast
        rw [div_eq_mul_inv]
      · rw [Complex.im_mul_ofReal]
        push_cast
        rw [div_eq_mul_inv]
    | false => simp

theorem load_general (date : Str) (hdate : '\n' ∉ date ∧ 3 ≤ (words (date ++ ['\n'])).length) (Ry : ℚ) (size : Nat) (h0 : 0 < size)
    (hs : size < 10 ^ 4) (m : Data) (hm : m ≠ []) (r divide : Bool) (hf : ∀ e ∈ m, Fits Ry r size e) :
    ∃ out, readHr divide (toHrdat date size Ry r m) = some (size, out) ∧
      List.Forall₂ (fun (e : V3 × (Nat → Nat → ℚ × ℚ)) (o : V3 × Elements) => o.1 = e.1 ∧ ∀ a < size, ∀ b < size,
        o.2 a b = some (roundTo 6 ((e.2 a b).1 * unit Ry r), roundTo 6 ((e.2 a b).2 * unit Ry r))) (sorted m) out := by
  have key : ∀ (e : V3 × (Nat → Nat → ℚ × ℚ)) (a b : Nat), (if r then ((e.2 a b).1 * Ry, (e.2 a b).2 * Ry) else e.2 a b) =
      ((e.2 a b).1 * unit Ry r, (e.2 a b).2 * unit Ry r) := by
    intro e a b
    cases r <;> simp [unit]
  obtain ⟨out, h1, h2⟩ := readHr_writeHr date hdate divide size h0 hs
    (m.map fun e => ⟨e.1, 1, fun a b => if r then ((e.2 a b).1 * Ry, (e.2 a b).2 * Ry) else e.2 a b⟩) (by simpa using hm) (by
      intro e he
      obtain ⟨e, hem, rfl⟩ := List.mem_map.1 he
      refine ⟨by norm_num, (hf e hem).R, fun a ha b hb => ?_⟩
      dsimp only
      rw [key]
      exact (hf e hem).H a ha b hb)
  refine ⟨out, h1, ?_⟩
  rw [sorted_map m _ fun _ => rfl, List.forall₂_map_left_iff] at h2
  refine h2.imp fun e o h => ⟨h.1, fun a ha b hb => ?_⟩
  rw [h.2 a ha b hb]
  dsimp only
  rw [key]
  simp [hrValue]

/-! ### Theorems -/

theorem load_eq (date : Str) (hdate : '\n' ∉ date ∧ 3 ≤ (words (date ++ ['\n'])).length) (Ry : ℚ) (size : Nat) (h0 : 0 < size)
    (hs : size < 10 ^ 4) (m : Data) (hm : m ≠ []) (r r' divide : Bool) (hf : ∀ e ∈ m, Fits Ry r size e) :
    load Ry (toHrdat date size Ry r m) none divide r' = some ⟨size, matrices size ((sorted m).map (rounded Ry r r'))⟩ := by
  obtain ⟨out, h1, h2⟩ := load_general date hdate Ry size h0 hs m hm r divide hf
  unfold load
  rw [h1]
  simp only [init, readWsvec, converted_eq, Option.bind_eq_bind, Option.bind_some]
  rw [converted_array Ry r r' size _ _ h2]
  rfl

/-- **C179**: a model that is saved and loaded again is the same model, with lattice vectors in lexical order: its energies, in eV, agree within the
precision of the file, no matter which units the saved and the loaded model use, and whether or not degeneracies are considered. -/
theorem C179_restored (date : Str) (hdate : '\n' ∉ date ∧ 3 ≤ (words (date ++ ['\n'])).length) (Ry : ℚ) (hRy : 0 < Ry) (size : Nat) (h0 : 0 < size)
    (hs : size < 10 ^ 4) (m : Data) (hm : m ≠ []) (r r' divide : Bool) (hf : ∀ e ∈ m, Fits Ry r size e) :
    ∃ l m' : Data, load Ry (toHrdat date size Ry r m) none divide r' = some ⟨size, matrices size m'⟩ ∧ l.Perm m ∧
      l.Pairwise (fun e e' => lexLe e.1 e'.1 = true) ∧ List.Forall₂ (fun e o => o.1 = e.1 ∧ ∀ a b,
        |(o.2 a b).1 * unit Ry r' - (e.2 a b).1 * unit Ry r| ≤ 1 / 2 / 10 ^ 6 ∧
        |(o.2 a b).2 * unit Ry r' - (e.2 a b).2 * unit Ry r| ≤ 1 / 2 / 10 ^ 6) l m' := by
  refine ⟨sorted m, (sorted m).map (rounded Ry r r'), load_eq date hdate Ry size h0 hs m hm r r' divide hf, sorted_perm m, sorted_pairwise m, ?_⟩
  rw [List.forall₂_map_right_iff, List.forall₂_same]
  intro e _
  refine ⟨rfl, fun a b => ?_⟩
  have hu := (unit_pos hRy r').ne'
  simp only [rounded, div_mul_cancel₀ _ hu]
  exact ⟨roundTo_near 6 _, roundTo_near 6 _⟩

/-- **C179**: saving and loading once more changes nothing at all, also if units are changed in between. -/
theorem C179_stable (date date' : Str) (hdate : '\n' ∉ date ∧ 3 ≤ (words (date ++ ['\n'])).length)
    (hdate' : '\n' ∉ date' ∧ 3 ≤ (words (date' ++ ['\n'])).length) (Ry : ℚ) (hRy : 0 < Ry) (size : Nat) (h0 : 0 < size)
    (hs : size < 10 ^ 4) (m : Data) (hm : m ≠ []) (r r' divide divide' : Bool) (hf : ∀ e ∈ m, Fits Ry r size e) :
    ∃ m' : Data, load Ry (toHrdat date size Ry r m) none divide r' = some ⟨size, matrices size m'⟩ ∧
      load Ry (toHrdat date' size Ry r' m') none divide' r' = some ⟨size, matrices size m'⟩ := by
  have hu := (unit_pos hRy r').ne'
  refine ⟨(sorted m).map (rounded Ry r r'), load_eq date hdate Ry size h0 hs m hm r r' divide hf, ?_⟩
  rw [load_eq date' hdate' Ry size h0 hs _ (by
    rw [Ne, List.map_eq_nil_iff]
    intro h
    have := (sorted_perm m).length_eq
    rw [h] at this
    exact hm (List.length_eq_zero_iff.1 this.symm)) r' r' divide' (by
      intro e he
      obtain ⟨e, hem, rfl⟩ := List.mem_map.1 he
      have h1 := hf e ((sorted_perm m).mem_iff.1 hem)
      refine ⟨h1.R, fun a ha b hb => ?_⟩
      simp only [rounded, div_mul_cancel₀ _ hu]
      exact ⟨roundTo_abs _ (h1.H a ha b hb).1, roundTo_abs _ (h1.H a ha b hb).2⟩), sorted_rounded]
  rw [List.map_map]
  refine congrArg (fun l => some (⟨size, matrices size l⟩ : (n : Nat) × List (Vec × Mat n))) (List.map_congr_left fun e _ => ?_)
  simp only [Function.comp_apply, rounded, div_mul_cancel₀ _ hu, roundTo_roundTo]

theorem foldlM_none {α β : Type} (f : β → α → Option β) (x : α) (h : ∀ s, f s x = none) (l : List α) (hx : x ∈ l) (s : β) : l.foldlM f s = none := by
  induction l generalizing s with
  | nil => exact absurd hx (by simp)
  | cons y l ih =>
    rw [List.foldlM_cons]
    rcases List.mem_cons.1 hx with rfl | hx
    · rw [h]
      rfl
    · cases f s y with
      | none => rfl
      | some s => exact ih hx s

theorem dict_none (es : List Entry) (key : Key) (h : ∀ e ∈ es, (e.R, (e.a : Int), (e.b : Int)) ≠ key) (d : Key → Option (List (List Int)))
    (hd : d key = none) : dict es d key = none := by
  induction es generalizing d with
  | nil => exact hd
  | cons e es ih =>
    rw [dict, List.foldl_cons]
    refine ih (fun e he => h e (by simp [he])) _ ?_
    rw [if_neg (Ne.symm (h e (by simp)))]
    exact hd

/-- **C179**, wrong in the code: a *_wsvec.dat* file with the same prefix, e.g., the one used to set up the model, is taken into account again. Loading fails
if the model has a lattice vector that is not listed there. -/
theorem C179_wsvec_violated (date : Str) (hdate : '\n' ∉ date ∧ 3 ≤ (words (date ++ ['\n'])).length) (Ry : ℚ) (size : Nat) (h0 : 0 < size)
    (hs : size < 10 ^ 4) (m : Data) (r r' : Bool) (hf : ∀ e ∈ m, Fits Ry r size e) (file : List Str) (es : List Entry)
    (hfile : Describes file es) (e : V3 × (Nat → Nat → ℚ × ℚ)) (he : e ∈ m) (hR : ∀ e' ∈ es, e'.R ≠ e.1) :
    load Ry (toHrdat date size Ry r m) (some file) true r' = none := by
  obtain ⟨out, h1, h2⟩ := load_general date hdate Ry size h0 hs m (List.ne_nil_of_mem he) r true hf
  obtain ⟨head, parts, rfl, hp⟩ := hfile
  unfold load
  rw [h1]
  simp only [init]
  rw [converted_eq, converted_array Ry r r' size _ _ h2, readWsvec, wsLoop_eq es parts hp _ (le_refl _)]
  simp only [Option.map_some, Option.bind_eq_bind, Option.bind_some, Option.map_map]
  rw [Option.map_eq_none_iff]
  have hx : (e.1, fun a b : Fin size => (⟨(((rounded Ry r r' e).2 a b).1 : ℚ), (((rounded Ry r r' e).2 a b).2 : ℚ)⟩ : ℂ)) ∈
      matrices size ((sorted m).map (rounded Ry r r')) :=
    List.mem_map.2 ⟨rounded Ry r r' e, List.mem_map_of_mem ((sorted_perm m).mem_iff.2 he), rfl⟩
  refine foldlM_none _ _ (fun s => ?_) _ hx _
  refine foldlM_none _ (⟨0, h0⟩ : Fin size) (fun s => ?_) _ (List.mem_finRange _) _
  refine foldlM_none _ (⟨0, h0⟩ : Fin size) (fun s => ?_) _ (List.mem_finRange _) _
  unfold spread
  rw [dict_none es _ (fun e' he' h => hR e' he' (Prod.mk.inj h).1) _ rfl]
  rfl

/-! ### Examples -/

/-- Two orbitals at 0 and 1/2 of a chain with a single k point. -/
def dimerFile : List Str :=
  ["## written on 16Nov2026 at 12:00:00 with use_ws_distance=.true.\n".toList,
    "    0    0    0    1    1\n".toList, "    1\n".toList, "    0    0    0\n".toList,
    "    0    0    0    1    2\n".toList, "    2\n".toList, "    0    0    0\n".toList, "   -1    0    0\n".toList,
    "    0    0    0    2    1\n".toList, "    2\n".toList, "    0    0    0\n".toList, "    1    0    0\n".toList,
    "    0    0    0    2    2\n".toList, "    1\n".toList, "    0    0    0\n".toList]

def dimerEntries : List Entry :=
  [⟨(0, 0, 0), 0, 0, [(0, 0, 0)]⟩, ⟨(0, 0, 0), 0, 1, [(0, 0, 0), (-1, 0, 0)]⟩, ⟨(0, 0, 0), 1, 0, [(0, 0, 0), (1, 0, 0)]⟩, ⟨(0, 0, 0), 1, 1, [(0, 0, 0)]⟩]

theorem dimer_describes : Describes dimerFile dimerEntries := by
  refine ⟨_, [(dimerFile.drop 1).take 3, (dimerFile.drop 4).take 4, (dimerFile.drop 8).take 4, dimerFile.drop 12], rfl, ?_⟩
  refine List.Forall₂.cons ⟨_, _, _, rfl, by decide +kernel, by decide +kernel, ?_⟩ (List.Forall₂.cons ⟨_, _, _, rfl, by decide +kernel,
    by decide +kernel, ?_⟩ (List.Forall₂.cons ⟨_, _, _, rfl, by decide +kernel, by decide +kernel, ?_⟩ (List.Forall₂.cons ⟨_, _, _, rfl,
    by decide +kernel, by decide +kernel, ?_⟩ List.Forall₂.nil)))
  · exact List.Forall₂.cons (by decide +kernel) List.Forall₂.nil
  · exact List.Forall₂.cons (by decide +kernel) (List.Forall₂.cons (by decide +kernel) List.Forall₂.nil)
  · exact List.Forall₂.cons (by decide +kernel) (List.Forall₂.cons (by decide +kernel) List.Forall₂.nil)
  · exact List.Forall₂.cons (by decide +kernel) List.Forall₂.nil

/-- The model set up with this file: hopping 1/2 within and between the cells. -/
def dimer : Data :=
  [((0, 0, 0), fun a b => if a = b then (0, 0) else (1 / 2, 0)), ((-1, 0, 0), fun a b => if a = 0 ∧ b = 1 then (1 / 2, 0) else (0, 0)),
    ((1, 0, 0), fun a b => if a = 1 ∧ b = 0 then (1 / 2, 0) else (0, 0))]

theorem dimer_fits (r : Bool) : ∀ e ∈ dimer, Fits (68 / 5) r 2 e := by
  intro e he
  simp only [dimer, List.mem_cons, List.not_mem_nil, or_false] at he
  rcases he with rfl | rfl | rfl <;> refine ⟨by norm_num, fun a _ b _ => ?_⟩ <;> dsimp only <;> split <;> cases r <;>
    norm_num [unit, abs_of_pos]

/-- The model of the dimer is set up with the file, saved, and cannot be loaded again. -/
theorem C179_dimer_violated : load (68 / 5) (toHrdat exampleDate 2 (68 / 5) false [((0, 0, 0), fun a b => if a = b then (0, 0) else (1, 0))]) (some dimerFile)
    true false = some ⟨2, matrices 2 dimer⟩ ∧ load (68 / 5) (toHrdat exampleDate 2 (68 / 5) false dimer) (some dimerFile) true false = none := by
  constructor
  · obtain ⟨out, h1, h2⟩ := load_general exampleDate (by decide) (68 / 5) 2 (by norm_num) (by norm_num)
      [((0, 0, 0), fun a b => if a = b then (0, 0) else (1, 0))] (by simp) false true (by
        intro e he
        rw [List.mem_singleton] at he
        subst he
        refine ⟨by norm_num, fun a _ b _ => ?_⟩
        dsimp only
        split <;> norm_num [unit])
    obtain ⟨head, parts, hfile, hp⟩ := dimer_describes
    unfold load
    rw [h1, hfile]
    simp only [init]
    rw [converted_eq, converted_array (68 / 5) false false 2 _ _ h2, readWsvec, wsLoop_eq _ parts hp _ (le_refl _)]
    rw [show sorted [((0, 0, 0), fun a b => if a = b then ((0 : ℚ), (0 : ℚ)) else (1, 0))] = [((0, 0, 0), fun a b => if a = b then (0, 0) else (1, 0))] from
      List.mergeSort_singleton _]
    have hr : roundTo 6 1 = 1 := by
      have := roundTo_exact 6 (10 ^ 6)
      norm_num at this
      exact this
    have h0 : roundTo 6 0 = 0 := by
      have := roundTo_exact 6 0
      norm_num at this
      exact this
    simp [distribute, show List.finRange 2 = [0, 1] from rfl, spread, dict, dimerEntries, three, addTo, matrices, rounded, unit]
    rw [hr, h0]
    simp only [dimer, List.map_cons, List.map_nil]
    have hz : (⟨((0 : ℚ) : ℝ), ((0 : ℚ) : ℝ)⟩ : ℂ) = 0 := by apply Complex.ext <;> simp
    have ho : (⟨((1 : ℚ) : ℝ), ((0 : ℚ) : ℝ)⟩ : ℂ) = 1 := by apply Complex.ext <;> simp
    have hh : (⟨((1 / 2 : ℚ) : ℝ), ((0 : ℚ) : ℝ)⟩ : ℂ) = 1 / 2 := by apply Complex.ext <;> simp
    rw [hz, ho]
    refine congrArg₂ List.cons (Prod.ext rfl ?_) (congrArg₂ List.cons (Prod.ext rfl ?_) (congrArg₂ List.cons (Prod.ext rfl ?_) rfl)) <;>
      funext c d <;> fin_cases c <;> fin_cases d <;> simp [hz, hh] <;> apply Complex.ext <;> simp
  · exact C179_wsvec_violated exampleDate (by decide) _ 2 (by norm_num) (by norm_num) dimer false false (dimer_fits false) _ _ dimer_describes
      ((1, 0, 0), _) (by simp [dimer]; rfl) (by simp [dimerEntries])

example : ∃ l m' : Data, load (68 / 5) (toHrdat exampleDate 2 (68 / 5) true dimer) none true false = some ⟨2, matrices 2 m'⟩ ∧ l.Perm dimer := by
  obtain ⟨l, m', h1, h2, -⟩ := C179_restored exampleDate (by decide) (68 / 5) (by norm_num) 2 (by norm_num) (by norm_num) dimer (by simp [dimer]) true false
    true (dimer_fits true)
  exact ⟨l, m', h1, h2⟩

example : ∃ m' : Data, load (68 / 5) (toHrdat exampleDate 2 (68 / 5) true dimer) none true false = some ⟨2, matrices 2 m'⟩ ∧
    load (68 / 5) (toHrdat exampleDate 2 (68 / 5) false m') none true false = some ⟨2, matrices 2 m'⟩ :=
  C179_stable exampleDate exampleDate (by decide) (by decide) (68 / 5) (by norm_num) 2 (by norm_num) (by norm_num) dimer (by simp [dimer]) true false true true
    (dimer_fits true)

end Verif.ElInit.Save
