import Verif.Text.ArrayFile
import Mathlib.Tactic.IntervalCases

/-!
# Lists of wave vectors, quadrupole tensors and Coulomb interactions in text files
-/

namespace Verif.Text

/-- `int(line)` -/
def intLine : List Str → Option Int
  | [w] => readInt w
  | _ => none

/-! ### `fildyn0` -/

/-- `elphmod/ph.py` 1044-1052 (`write_q`). -/
def writeQ (q : List (ℚ × ℚ)) (nq : Int) : Str :=
  fmt [fInt 0 4 nq, fInt 0 4 nq, fInt 0 4 1] ++ '\n' :: (fmt [fInt 0 4 q.length] ++ '\n' ::
    q.flatMap fun p => fmt [fFixed 0 19 15 p.1, fFixed 0 19 15 p.2, fFixed 0 19 15 0] ++ ['\n'])

/-- `elphmod/ph.py` 1034-1042 (`read_q`). -/
def readQ (text : Str) : Option (List Int × List (List ℚ)) :=
  match tokens text with
  | l :: n :: r =>
    match l.mapM readInt, intLine n, r.mapM fun l => l.mapM readFloat with
    | some nq, some _, some q => some (nq, q)
    | _, _, _ => none
  | _ => none

theorem flatMap_single {α β : Type} (l : List α) (f : α → β) : (l.flatMap fun a => [f a]) = l.map f := by
  induction l with
  | nil => rfl
  | cons a l ih => simp [ih]

/-- Lines of the same kind. -/
theorem tokens_rows {α : Type} (l : List α) (f : α → List Field) (h1 : ∀ a ∈ l, ∀ x ∈ f a, Solid x.text)
    (h2 : ∀ a ∈ l, ∀ x ∈ (f a).tail, x.Free) (r : Str) :
    tokens ((l.flatMap fun a => fmt (f a) ++ ['\n']) ++ r) = (l.map fun a => (f a).map Field.text) ++ tokens r := by
  rw [tokens_flatMap l _ (fun a => [(f a).map Field.text]), flatMap_single]
  intro a ha r
  rw [List.append_assoc, List.singleton_append, tokens_fmt _ (h1 a ha) (h2 a ha)]
  rfl

/-- C108: a list of wave vectors is read as it was written, up to half a unit of the 15th decimal. What is missing: mesh sizes
of 1000 or more and components of 10 or more. -/
theorem C108_partial (q : List (ℚ × ℚ)) (nq : Int) (h0 : -100 < nq) (h1 : nq < 1000) (hq : ∀ p ∈ q, |p.2| ≤ 9) :
    ∃ q', readQ (writeQ q nq) = some ([nq, nq, 1], q') ∧
      List.Forall₂ (fun (p : ℚ × ℚ) l => ∃ x y : ℚ, l = [x, y, 0] ∧ |x - p.1| ≤ 1 / 2 / 10 ^ 15 ∧ |y - p.2| ≤ 1 / 2 / 10 ^ 15)
        q q' := by
  refine ⟨q.map fun p => [roundTo 15 p.1, roundTo 15 p.2, 0], ?_, ?_⟩
  · have ht : tokens (writeQ q nq) = [showInt nq, showInt nq, showInt 1] :: [showInt q.length] ::
        q.map fun p => [showFixed 15 p.1, showFixed 15 p.2, showFixed 15 0] := by
      have hr := tokens_rows q (fun p => [fFixed 0 19 15 p.1, fFixed 0 19 15 p.2, fFixed 0 19 15 0]) (by
        intro p hp x hx
        simp only [List.mem_cons, List.not_mem_nil, or_false] at hx
        rcases hx with rfl | rfl | rfl <;> exact fFixed_solid _ _ _ _) (by
        intro p hp x hx
        simp only [List.tail_cons, List.mem_cons, List.not_mem_nil, or_false] at hx
        rcases hx with rfl | rfl
        · exact fFixed_free 0 19 15 1 _ (by omega) (by omega) (by omega) ((hq p hp).trans (by norm_num))
        · exact fFixed_free 0 19 15 1 _ (by omega) (by omega) (by omega) (by norm_num)) []
      rw [List.append_nil, tokens_nil, List.append_nil] at hr
      unfold writeQ
      rw [tokens_fmt, tokens_fmt, hr]
      · rfl
      · intro f hf
        simp only [List.mem_cons, List.not_mem_nil, or_false] at hf
        subst hf
        exact fInt_solid _ _ _
      · simp
      · intro f hf
        simp only [List.mem_cons, List.not_mem_nil, or_false] at hf
        rcases hf with rfl | rfl | rfl <;> exact fInt_solid _ _ _
      · intro f hf
        simp only [List.tail_cons, List.mem_cons, List.not_mem_nil, or_false] at hf
        rcases hf with rfl | rfl
        · exact fInt_free 0 4 2 _ (by omega) (by omega) (by omega) (by omega)
        · exact fInt_free 0 4 2 _ (by omega) (by omega) (by omega) (by omega)
    have h0' : roundTo 15 0 = 0 := by
      have := roundTo_exact 15 0
      simpa using this
    unfold readQ
    rw [ht]
    simp only [List.mapM_cons, List.mapM_nil, readInt_showInt, intLine]
    rw [mapM_map _ _ (fun p : ℚ × ℚ => [roundTo 15 p.1, roundTo 15 p.2, 0])]
    · rfl
    · intro p hp
      simp only [List.mapM_cons, List.mapM_nil, readFloat_showFixed 15 (by omega), h0']
      rfl
  · rw [List.forall₂_map_right_iff, List.forall₂_same]
    exact fun p hp => ⟨_, _, rfl, roundTo_near _ _, roundTo_near _ _⟩

/-- Example: points of a 12 x 12 mesh. -/
example : ∃ q', readQ (writeQ [(0, 0), (1 / 12, -1 / 3)] 12) = some ([12, 12, 1], q') := by
  obtain ⟨q', h, -⟩ := C108_partial [(0, 0), (1 / 12, -1 / 3)] 12 (by norm_num) (by norm_num) (by
    intro p hp
    simp only [List.mem_cons, List.not_mem_nil, or_false] at hp
    rcases hp with rfl | rfl <;> norm_num [abs_le])
  exact ⟨q', h⟩

/-- C108 is violated for large meshes and wave vectors: a 1000 x 1000 mesh is read as a different one, and files with a
component of -10 cannot be read. -/
theorem C108_violated : readQ (writeQ [] 1000) = some ([10001000, 1], []) ∧ readQ (writeQ [(0, -10)] 1) = none := by
  constructor <;> decide +kernel

/-! ### `quadrupole.fmt` -/

/-- Tensor of third rank. -/
abbrev Tensor3 := Nat → Nat → Nat → ℚ

/-- Fields of a line, `elphmod/ph.py` 1625-1627. -/
def quadFields (na i : Nat) (T : Tensor3) : List Field :=
  [fInt 0 4 (na + 1), fInt 1 3 (i + 1), fFixed 1 14 10 (T i 0 0), fFixed 1 14 10 (T i 1 1), fFixed 1 14 10 (T i 2 2),
    fFixed 1 14 10 (T i 1 2), fFixed 1 14 10 (T i 0 2), fFixed 1 14 10 (T i 0 1)]

/-- Heading, `elphmod/ph.py` 1620-1621. -/
def quadHead : Str := fmt [⟨0, 4, "atom".toList⟩, ⟨1, 3, "dir".toList⟩, ⟨1, 14, "Qxx".toList⟩, ⟨1, 14, "Qyy".toList⟩,
  ⟨1, 14, "Qzz".toList⟩, ⟨1, 14, "Qyz".toList⟩, ⟨1, 14, "Qxz".toList⟩, ⟨1, 14, "Qxy".toList⟩]

/-- `elphmod/ph.py` 1606-1627 (`write_quadrupole_fmt`); three directions. -/
def writeQuad (Q : List Tensor3) : Str :=
  quadHead ++ '\n' :: (Q.zipIdx.flatMap fun p => (List.range 3).map fun i => (p, i)).flatMap fun p =>
    fmt (quadFields p.1.2 p.2 p.1.1) ++ ['\n']

/-- Assignments of `elphmod/ph.py` 1594-1602. -/
def quadSet (T : Tensor3) (i : Nat) (xx yy zz yz xz xy : ℚ) : Tensor3 := fun a b c =>
  if a = i then
    match b, c with
    | 0, 0 => xx
    | 1, 1 => yy
    | 2, 2 => zz
    | 1, 2 => yz
    | 2, 1 => yz
    | 0, 2 => xz
    | 2, 0 => xz
    | 0, 1 => xy
    | 1, 0 => xy
    | b, c => T a b c
  else T a b c

/-- One line, `elphmod/ph.py` 1581-1602. -/
def quadLine (Q : List Tensor3) (l : List Str) : Option (List Tensor3) :=
  if l = [] then some Q
  else match (l.take 2).mapM readInt, (l.drop 2).mapM readFloat with
    | some [n, i], some [xx, yy, zz, yz, xz, xy] =>
      let Q := Q ++ List.replicate (n.toNat - Q.length) (fun _ _ _ => 0 : Tensor3)
      match pyIndex Q.length (n - 1), pyIndex 3 (i - 1) with
      | some na, some i => some (Q.modify na fun T => quadSet T i xx yy zz yz xz xy)
      | _, _ => none
    | _, _ => none

/-- `elphmod/ph.py` 1561-1604 (`read_quadrupole_fmt`). -/
def readQuad (text : Str) : Option (List Tensor3) :=
  match tokens text with
  | [] => none
  | _ :: r => r.foldlM quadLine []

/-- Row of a tensor that is read. -/
def quadRow (T T' : Tensor3) (i : Nat) : Tensor3 :=
  quadSet T' i (roundTo 10 (T i 0 0)) (roundTo 10 (T i 1 1)) (roundTo 10 (T i 2 2)) (roundTo 10 (T i 1 2))
    (roundTo 10 (T i 0 2)) (roundTo 10 (T i 0 1))

theorem quadLine_words (Q : List Tensor3) (na i : Nat) (hi : i < 3) (T : Tensor3) :
    quadLine Q ((quadFields na i T).map Field.text) =
      some ((Q ++ List.replicate (na + 1 - Q.length) (fun _ _ _ => 0 : Tensor3)).modify na fun T' => quadRow T T' i) := by
  unfold quadLine quadFields
  simp only [List.map_cons, List.map_nil, fInt, fFixed, List.take_succ_cons, List.take_zero, List.drop_succ_cons, List.drop_zero,
    List.mapM_cons, List.mapM_nil, readInt_showInt, readFloat_showFixed 10 (by omega)]
  rw [if_neg (by simp)]
  simp only [Option.pure_def, Option.bind_eq_bind, Option.bind_some]
  have h1 : ((na : Int) + 1).toNat = na + 1 := by omega
  rw [h1, pyIndex_succ _ na (by simp; omega), pyIndex_succ _ i hi]
  rfl

theorem quadFields_solid (na i : Nat) (T : Tensor3) : ∀ f ∈ quadFields na i T, Solid f.text := by
  intro f hf
  simp only [quadFields, List.mem_cons, List.not_mem_nil, or_false] at hf
  rcases hf with rfl | rfl | rfl | rfl | rfl | rfl | rfl | rfl <;> first | exact fInt_solid _ _ _ | exact fFixed_solid _ _ _ _

theorem quadFields_free (na i : Nat) (T : Tensor3) : ∀ f ∈ (quadFields na i T).tail, f.Free := by
  intro f hf
  simp only [quadFields, List.tail_cons, List.mem_cons, List.not_mem_nil, or_false] at hf
  rcases hf with rfl | rfl | rfl | rfl | rfl | rfl | rfl <;> exact Or.inl Nat.one_pos

/-- Three lines of one atom. -/
theorem quad_atom (Q : List Tensor3) (T : Tensor3) (rest : List (List Str)) :
    ∃ T', ((((List.range 3).map fun i => (quadFields Q.length i T).map Field.text) ++ rest).foldlM quadLine Q) =
        rest.foldlM quadLine (Q ++ [T']) ∧
      ∀ i < 3, ∀ j < 3, ∀ k < 3, T' i j k = roundTo 10 (T i (min j k) (max j k)) := by
  refine ⟨quadRow T (quadRow T (quadRow T (fun _ _ _ => 0) 0) 1) 2, ?_, ?_⟩
  · have hm : ∀ (S : Tensor3) (f : Tensor3 → Tensor3), (Q ++ [S]).modify Q.length f = Q ++ [f S] := by
      intro S f
      apply List.ext_getElem?
      intro n
      rw [List.getElem?_modify]
      rcases Nat.lt_trichotomy n Q.length with h | h | h
      · rw [List.getElem?_append_left h, List.getElem?_append_left h]
        simp [show ¬Q.length = n by omega]
      · subst h
        simp
      · rw [List.getElem?_eq_none (by simp; omega), List.getElem?_eq_none (by simp; omega)]
        simp
    rw [show List.range 3 = [0, 1, 2] from rfl]
    simp only [List.map_cons, List.map_nil, List.cons_append, List.nil_append, List.foldlM_cons]
    rw [quadLine_words Q _ 0 (by omega)]
    simp only [Option.bind_eq_bind, Option.bind_some]
    rw [show Q.length + 1 - Q.length = 1 by omega, List.replicate_one, hm, quadLine_words _ _ 1 (by omega)]
    simp only [Option.bind_some]
    rw [show Q.length + 1 - (Q ++ [quadRow T (fun _ _ _ => 0) 0]).length = 0 by simp, List.replicate_zero, List.append_nil, hm,
      quadLine_words _ _ 2 (by omega)]
    simp only [Option.bind_some]
    rw [show Q.length + 1 - (Q ++ [quadRow T (quadRow T (fun _ _ _ => 0) 0) 1]).length = 0 by simp, List.replicate_zero,
      List.append_nil, hm]
  · intro i hi j hj k hk
    interval_cases i <;> interval_cases j <;> interval_cases k <;> rfl

theorem quad_atoms (Q L : List Tensor3) :
    ∃ L', (((L.zipIdx Q.length).flatMap fun p => (List.range 3).map fun i => (p, i)).map fun p =>
        (quadFields p.1.2 p.2 p.1.1).map Field.text).foldlM quadLine Q = some (Q ++ L') ∧
      List.Forall₂ (fun T T' : Tensor3 => ∀ i < 3, ∀ j < 3, ∀ k < 3, T' i j k = roundTo 10 (T i (min j k) (max j k))) L L' := by
  induction L generalizing Q with
  | nil => exact ⟨[], by simp, List.Forall₂.nil⟩
  | cons T L ih =>
    obtain ⟨T', e1, e2⟩ := quad_atom Q T ((((L.zipIdx (Q.length + 1)).flatMap fun p => (List.range 3).map fun i => (p, i)).map
      fun p => (quadFields p.1.2 p.2 p.1.1).map Field.text))
    obtain ⟨L', f1, f2⟩ := ih (Q ++ [T'])
    rw [List.length_append, List.length_singleton] at f1
    refine ⟨T' :: L', ?_, List.Forall₂.cons e2 f2⟩
    rw [List.zipIdx_cons, List.flatMap_cons, List.map_append, List.map_map]
    refine Eq.trans ?_ (e1.trans ?_)
    · rfl
    · rw [f1]
      simp

/-- C109: a quadrupole tensor that is symmetric in the last two indices is read as it was written (with ten decimals); of other
tensors, the upper triangle is kept. -/
theorem C109_roundtrip (Q : List Tensor3) : ∃ Q', readQuad (writeQuad Q) = some Q' ∧
    List.Forall₂ (fun T T' : Tensor3 => ∀ i < 3, ∀ j < 3, ∀ k < 3, T' i j k = T' i k j ∧
      |T' i j k - T i (min j k) (max j k)| ≤ 1 / 2 / 10 ^ 10 ∧
      ((∀ i < 3, ∀ j < 3, ∀ k < 3, T i j k = T i k j) → |T' i j k - T i j k| ≤ 1 / 2 / 10 ^ 10)) Q Q' := by
  obtain ⟨Q', e1, e2⟩ := quad_atoms [] Q
  refine ⟨Q', ?_, e2.imp ?_⟩
  · unfold readQuad writeQuad
    have hr := tokens_rows (Q.zipIdx.flatMap fun p => (List.range 3).map fun i => (p, i))
      (fun p => quadFields p.1.2 p.2 p.1.1) (fun _ _ => quadFields_solid _ _ _) (fun _ _ => quadFields_free _ _ _) []
    rw [List.append_nil, tokens_nil, List.append_nil] at hr
    rw [tokens_line _ (by decide +kernel), hr]
    simpa using e1
  · intro T T' h i hi j hj k hk
    refine ⟨?_, ?_, ?_⟩
    · rw [h i hi j hj k hk, h i hi k hk j hj, min_comm, max_comm]
    · rw [h i hi j hj k hk]
      exact roundTo_near _ _
    · intro hs
      rw [h i hi j hj k hk]
      rcases le_total j k with hjk | hjk
      · rw [min_eq_left hjk, max_eq_right hjk]
        exact roundTo_near _ _
      · rw [min_eq_right hjk, max_eq_left hjk, hs i hi k hk j hj]
        exact roundTo_near _ _

/-- Example: two atoms with a symmetric tensor. -/
example : ∀ i < 3, ∀ j < 3, ∀ k < 3, ((fun i j k => (i : ℚ) + j * k : Tensor3) i j k) = (i : ℚ) + k * j := by
  intro i _ j _ k _
  simp only
  ring

/-! ### Coulomb interaction in the band basis -/

/-- `elphmod/elel.py` 413-433 (`write_band_Coulomb_interaction`, text). -/
def writeBandU (nQ nk : Nat) (U : List Nat → ℚ × ℚ) : Str :=
  (indices [nQ, nk, nk, nk, nk]).flatMap fun i => fmt [fFixed 0 14 9 (U i).1, fFixed 1 14 9 (U i).2] ++ ['\n']

/-- Loops of `elphmod/elel.py` 396-403. -/
def bandUFill : List (List Nat) → (List Nat → Option (ℚ × ℚ)) → List (List Str) → Option (List Nat → Option (ℚ × ℚ))
  | [], U, _ => some U
  | _ :: _, _, [] => none
  | i :: is, U, l :: r =>
    match l.mapM readFloat with
    | some [a, b] => bandUFill is (fun j => if j = i then some (a, b) else U j) r
    | _ => none

/-- `elphmod/elel.py` 380-411 (`read_band_Coulomb_interaction`, text). -/
def readBandU (nQ nk : Nat) (text : Str) : Option (List Nat → Option (ℚ × ℚ)) :=
  bandUFill (indices [nQ, nk, nk, nk, nk]) (fun _ => none) (tokens text)

theorem bandUFill_lines (L : List (List Nat)) (U : List Nat → ℚ × ℚ) (V : List Nat → Option (ℚ × ℚ)) (r : List (List Str)) :
    ∃ W, bandUFill L V ((L.map fun i => [showFixed 9 (U i).1, showFixed 9 (U i).2]) ++ r) = some W ∧
      ∀ i, W i = if i ∈ L then some (roundTo 9 (U i).1, roundTo 9 (U i).2) else V i := by
  induction L generalizing V with
  | nil => exact ⟨V, rfl, by simp⟩
  | cons i L ih =>
    obtain ⟨W, e1, e2⟩ := ih fun j => if j = i then some (roundTo 9 (U i).1, roundTo 9 (U i).2) else V j
    refine ⟨W, ?_, ?_⟩
    · rw [List.map_cons, List.cons_append, bandUFill]
      simp only [List.mapM_cons, List.mapM_nil, readFloat_showFixed 9 (by omega)]
      exact e1
    · intro j
      rw [e2]
      by_cases h : j ∈ L
      · simp [h]
      · by_cases h' : j = i
        · subst h'
          simp
        · simp [h, h']

/-- C110: the Coulomb interaction in the band basis is read as it was written (with nine decimals), also if other text
follows. -/
theorem C110_roundtrip (nQ nk : Nat) (U : List Nat → ℚ × ℚ) (r : Str) : ∃ W, readBandU nQ nk (writeBandU nQ nk U ++ r) = some W ∧
    ∀ Q < nQ, ∀ k1 < nk, ∀ k2 < nk, ∀ K1 < nk, ∀ K2 < nk, ∃ a b, W [Q, k1, k2, K1, K2] = some (a, b) ∧
      |a - (U [Q, k1, k2, K1, K2]).1| ≤ 1 / 2 / 10 ^ 9 ∧ |b - (U [Q, k1, k2, K1, K2]).2| ≤ 1 / 2 / 10 ^ 9 := by
  obtain ⟨W, e1, e2⟩ := bandUFill_lines (indices [nQ, nk, nk, nk, nk]) U (fun _ => none) (tokens r)
  refine ⟨W, ?_, ?_⟩
  · unfold readBandU writeBandU
    rw [tokens_rows _ (fun i => [fFixed 0 14 9 (U i).1, fFixed 1 14 9 (U i).2])]
    · exact e1
    · intro i hi f hf
      simp only [List.mem_cons, List.not_mem_nil, or_false] at hf
      rcases hf with rfl | rfl <;> exact fFixed_solid _ _ _ _
    · intro i hi f hf
      simp only [List.tail_cons, List.mem_cons, List.not_mem_nil, or_false] at hf
      subst hf
      exact Or.inl Nat.one_pos
  · intro Q hQ k1 h1 k2 h2 K1 h3 K2 h4
    refine ⟨_, _, (e2 _).trans (if_pos ?_), roundTo_near _ _, roundTo_near _ _⟩
    rw [mem_indices]
    exact .cons hQ (.cons h1 (.cons h2 (.cons h3 (.cons h4 .nil))))

/-- Example: large numbers do not run into each other. -/
example : (readBandU 1 1 (writeBandU 1 1 fun _ => (-123456, -654321))).map (fun W => W [0, 0, 0, 0, 0]) =
    some (some (-123456, -654321)) := by
  decide +kernel

end Verif.Text
