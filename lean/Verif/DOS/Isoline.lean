import Verif.MPI.Props
import Mathlib.Algebra.Module.Basic
import Mathlib.Data.Real.Basic
import Mathlib.Data.Finset.Card
import Mathlib.Algebra.Order.BigOperators.Group.Finset
import Mathlib.Algebra.BigOperators.Group.Finset.Basic
import Mathlib.Algebra.Module.Prod
import Mathlib.Algebra.Group.Nat.Even
import Mathlib.Algebra.Ring.Parity
import Mathlib.Tactic.Linarith
import Mathlib.Tactic.LinearCombination
import Mathlib.Tactic.FieldSimp
import Mathlib.Tactic.Module
import Mathlib.Tactic.NormNum

/-!
# Isolines: `isoline` of `elphmod/dos.py`

Exact arithmetic. The list of triangles (sorted corners and their energies) is given. The order in which Python iterates over a
set and the element removed by `pop` are not specified; the joining of line segments is thus a relation that allows any choice.
-/

namespace Verif.Isoline

open scoped Classical

section
variable {V : Type} [AddCommGroup V] [Module ℝ V]

/-- A triangle: three corners, sorted by energy, and their energies. -/
structure Tri (V : Type) where
  i : V
  j : V
  k : V
  A : ℝ
  B : ℝ
  C : ℝ

/-- `elphmod/dos.py` 337-359: the segment in one triangle; `none` stands for the exception that follows from line 352, where a
point and an array rather than one pair of points are appended, as the array cannot be an element of a set (line 364). -/
noncomputable def triSegment (E : ℝ) (t : Tri V) : Option (List (V × V)) :=
  if t.A < E ∧ E ≤ t.B then
    if E = t.B ∧ t.B = t.C then some [(t.j, t.k)]
    else
      let alpha := (E - t.A) / (t.B - t.A)
      let beta := (E - t.A) / (t.C - t.A)
      some [((1 - alpha) • t.i + alpha • t.j, (1 - beta) • t.i + beta • t.k)]
  else if t.B ≤ E ∧ E < t.C then
    if E = t.A ∧ t.A = t.B then none
    else
      let alpha := (E - t.B) / (t.C - t.B)
      let beta := (E - t.A) / (t.C - t.A)
      some [((1 - alpha) • t.j + alpha • t.k, (1 - beta) • t.i + beta • t.k)]
  else some []

/-- `elphmod/dos.py` 334-359: segments of one process. -/
noncomputable def mySegments (E : ℝ) (ts : List (Tri V)) : Option (List (V × V)) := (ts.mapM (triSegment E)).map List.flatten

/-- `elphmod/dos.py` 329-330, 361-364: triangles are distributed over `size` processes; all segments as a set. -/
noncomputable def allSegments (size : Nat) (E : ℝ) (ts : List (Tri V)) : Option (Finset (V × V)) :=
  ((List.range size).mapM fun rank => mySegments E (MPI.strideFrom size rank ts)).map fun l => l.flatten.toFinset

end

section
variable {P : Type}

/-- State of the loop in lines 371-384: remaining segments, current contour, finished contours. -/
structure Joining (P : Type) where
  points : Finset (P × P)
  contour : List P
  finished : List (List P)

/-- `point[1 - point.index(p)]`. -/
noncomputable def other (s : P × P) (p : P) : P := if s.1 = p then s.2 else s.1

/-- `elphmod/dos.py` 371-384: one iteration of the `while` loop, for any order of the set. -/
inductive JoinStep : Joining P → Joining P → Prop
  | last (points : Finset (P × P)) (c : List P) (x : P) (finished : List (List P)) (s : P × P) (hs : s ∈ points) (h : s.1 = x ∨ s.2 = x) :
    JoinStep ⟨points, c ++ [x], finished⟩ ⟨points.erase s, c ++ [x] ++ [other s x], finished⟩
  | first (points : Finset (P × P)) (c : List P) (x y : P) (finished : List (List P)) (s : P × P) (hs : s ∈ points)
    (hl : (x :: c).getLast? = some y) (hy : ¬(s.1 = y ∨ s.2 = y)) (h : s.1 = x ∨ s.2 = x) :
    JoinStep ⟨points, x :: c, finished⟩ ⟨points.erase s, other s x :: x :: c, finished⟩
  | new (points : Finset (P × P)) (c : List P) (finished : List (List P)) (s : P × P) (hs : s ∈ points)
    (h : ∀ s ∈ points, ∀ x, (c.head? = some x ∨ c.getLast? = some x) → ¬(s.1 = x ∨ s.2 = x)) :
    JoinStep ⟨points, c, finished⟩ ⟨points.erase s, [s.1, s.2], finished ++ [c]⟩

/-- `elphmod/dos.py` 366-384: complete runs of the loop; the result for an empty set is an empty list. -/
inductive Joins : Joining P → List (List P) → Prop
  | done (c : List P) (finished : List (List P)) : Joins ⟨∅, c, finished⟩ (finished ++ [c])
  | step (s t : Joining P) (r : List (List P)) (h : JoinStep s t) (hr : Joins t r) : Joins s r

/-- `elphmod/dos.py` 366-386: possible results of joining a set of segments. -/
inductive Contours (points : Finset (P × P)) : List (List P) → Prop
  | none (h : points = ∅) : Contours points []
  | some (s : P × P) (hs : s ∈ points) (r : List (List P)) (hr : Joins ⟨points.erase s, [s.1, s.2], []⟩ r) : Contours points r

end

/-! ### Segment in a triangle -/

section
variable {V : Type} [AddCommGroup V] [Module ℝ V]

/-- Specification: points of the triangle where the linearly interpolated energy is `E`. -/
def isoPoints (E : ℝ) (t : Tri V) : Set V :=
  {p | ∃ u v w : ℝ, 0 ≤ u ∧ 0 ≤ v ∧ 0 ≤ w ∧ u + v + w = 1 ∧ u * t.A + v * t.B + w * t.C = E ∧ p = u • t.i + v • t.j + w • t.k}

/-- Specification: points between `p` and `q`. -/
def between (p q : V) : Set V := {r | ∃ s : ℝ, 0 ≤ s ∧ s ≤ 1 ∧ r = (1 - s) • p + s • q}

theorem iso_lower (E : ℝ) (t : Tri V) (hBC : t.B ≤ t.C) (hA : t.A < E) (hB : E ≤ t.B) (h : ¬(E = t.B ∧ t.B = t.C)) :
    isoPoints E t = between ((1 - (E - t.A) / (t.B - t.A)) • t.i + ((E - t.A) / (t.B - t.A)) • t.j)
      ((1 - (E - t.A) / (t.C - t.A)) • t.i + ((E - t.A) / (t.C - t.A)) • t.k) := by
  have h1 : 0 < t.B - t.A := by linarith
  have h2 : 0 < t.C - t.A := by linarith
  have h3 : 0 < E - t.A := by linarith
  ext p
  constructor
  · rintro ⟨u, v, w, hu, hv, hw, h4, h5, rfl⟩
    have h6 : v * (t.B - t.A) + w * (t.C - t.A) = E - t.A := by
      have : u = 1 - v - w := by linarith
      rw [this] at h5
      linarith
    refine ⟨w * (t.C - t.A) / (E - t.A), by positivity, ?_, ?_⟩
    · rw [div_le_one h3]
      have : 0 ≤ v * (t.B - t.A) := by positivity
      linarith
    · have e1 : (1 - w * (t.C - t.A) / (E - t.A)) * ((E - t.A) / (t.B - t.A)) = v := by
        field_simp
        linarith
      have e2 : w * (t.C - t.A) / (E - t.A) * ((E - t.A) / (t.C - t.A)) = w := by
        field_simp
      have e3 : (1 - w * (t.C - t.A) / (E - t.A)) * (1 - (E - t.A) / (t.B - t.A)) +
          w * (t.C - t.A) / (E - t.A) * (1 - (E - t.A) / (t.C - t.A)) = u := by
        linear_combination -e1 - e2 - h4
      rw [smul_add, smul_add, smul_smul, smul_smul, smul_smul, smul_smul, e1, e2, ← e3]
      module
  · rintro ⟨s, hs0, hs1, rfl⟩
    set a := (E - t.A) / (t.B - t.A) with ha
    set b := (E - t.A) / (t.C - t.A) with hb
    have ha0 : 0 ≤ a := by positivity
    have hb0 : 0 ≤ b := by positivity
    have ha1 : a ≤ 1 := by rw [ha, div_le_one h1]; linarith
    have hb1 : b ≤ 1 := by rw [hb, div_le_one h2]; linarith
    have ea : a * (t.B - t.A) = E - t.A := by rw [ha]; field_simp
    have eb : b * (t.C - t.A) = E - t.A := by rw [hb]; field_simp
    refine ⟨(1 - s) * (1 - a) + s * (1 - b), (1 - s) * a, s * b, ?_, ?_, by positivity, by ring, ?_, by module⟩
    · exact add_nonneg (mul_nonneg (by linarith) (by linarith)) (mul_nonneg hs0 (by linarith))
    · exact mul_nonneg (by linarith) ha0
    · linear_combination (1 - s) * ea + s * eb

theorem iso_upper (E : ℝ) (t : Tri V) (hAB : t.A ≤ t.B) (hB : t.B ≤ E) (hC : E < t.C) :
    isoPoints E t = between ((1 - (E - t.B) / (t.C - t.B)) • t.j + ((E - t.B) / (t.C - t.B)) • t.k)
      ((1 - (E - t.A) / (t.C - t.A)) • t.i + ((E - t.A) / (t.C - t.A)) • t.k) := by
  have h1 : 0 < t.C - t.B := by linarith
  have h2 : 0 < t.C - t.A := by linarith
  have h3 : 0 < t.C - E := by linarith
  ext p
  constructor
  · rintro ⟨u, v, w, hu, hv, hw, h4, h5, rfl⟩
    have h6 : v * (t.C - t.B) + u * (t.C - t.A) = t.C - E := by
      have : w = 1 - u - v := by linarith
      rw [this] at h5
      linarith
    refine ⟨u * (t.C - t.A) / (t.C - E), by positivity, ?_, ?_⟩
    · rw [div_le_one h3]
      have : 0 ≤ v * (t.C - t.B) := by positivity
      linarith
    · have f1 : 1 - (E - t.B) / (t.C - t.B) = (t.C - E) / (t.C - t.B) := by field_simp; ring
      have f2 : 1 - (E - t.A) / (t.C - t.A) = (t.C - E) / (t.C - t.A) := by field_simp; ring
      have e1 : (1 - u * (t.C - t.A) / (t.C - E)) * ((t.C - E) / (t.C - t.B)) = v := by
        field_simp
        linarith
      have e2 : u * (t.C - t.A) / (t.C - E) * ((t.C - E) / (t.C - t.A)) = u := by
        field_simp
      have e3 : (1 - u * (t.C - t.A) / (t.C - E)) * (1 - (t.C - E) / (t.C - t.B)) +
          u * (t.C - t.A) / (t.C - E) * (1 - (t.C - E) / (t.C - t.A)) = w := by
        linear_combination -e1 - e2 - h4
      rw [show (E - t.B) / (t.C - t.B) = 1 - (t.C - E) / (t.C - t.B) by rw [← f1]; ring,
        show (E - t.A) / (t.C - t.A) = 1 - (t.C - E) / (t.C - t.A) by rw [← f2]; ring, sub_sub_cancel, sub_sub_cancel,
        smul_add, smul_add, smul_smul, smul_smul, smul_smul, smul_smul, e1, e2, ← e3]
      module
  · rintro ⟨s, hs0, hs1, rfl⟩
    set a := (E - t.B) / (t.C - t.B) with ha
    set b := (E - t.A) / (t.C - t.A) with hb
    have ha0 : 0 ≤ a := div_nonneg (by linarith) h1.le
    have hb0 : 0 ≤ b := div_nonneg (by linarith) h2.le
    have ha1 : a ≤ 1 := by rw [ha, div_le_one h1]; linarith
    have hb1 : b ≤ 1 := by rw [hb, div_le_one h2]; linarith
    have ea : a * (t.C - t.B) = E - t.B := by rw [ha]; field_simp
    have eb : b * (t.C - t.A) = E - t.A := by rw [hb]; field_simp
    refine ⟨s * (1 - b), (1 - s) * (1 - a), (1 - s) * a + s * b, mul_nonneg hs0 (by linarith), mul_nonneg (by linarith) (by linarith), ?_,
      by ring, ?_, by module⟩
    · exact add_nonneg (mul_nonneg (by linarith) ha0) (mul_nonneg hs0 hb0)
    · linear_combination (1 - s) * ea + s * eb

/-- C71 (segment): in each triangle, the segment consists of exactly the points with energy `E`. Missing: two corners at the lowest
energy `E`, see `C71_segment_violated`. -/
theorem C71_segment_partial (E : ℝ) (t : Tri V) (hAB : t.A ≤ t.B) (hBC : t.B ≤ t.C) (hE : t.A < E ∧ E ≤ t.B ∨ t.B ≤ E ∧ E < t.C)
    (h : ¬(E = t.A ∧ t.A = t.B)) : ∃ s, triSegment E t = some [s] ∧ isoPoints E t = between s.1 s.2 := by
  unfold triSegment
  by_cases h1 : t.A < E ∧ E ≤ t.B
  · rw [if_pos h1]
    by_cases h2 : E = t.B ∧ t.B = t.C
    · rw [if_pos h2]
      refine ⟨_, rfl, ?_⟩
      ext p
      constructor
      · rintro ⟨u, v, w, hu, hv, hw, h4, h5, rfl⟩
        have h6 : u * (t.B - t.A) = 0 := by
          rw [← h2.2, h2.1] at h5
          have : w = 1 - u - v := by linarith
          rw [this] at h5
          linarith
        have h7 : u = 0 := by
          rcases mul_eq_zero.1 h6 with h7 | h7
          · exact h7
          · linarith
        refine ⟨w, hw, by linarith, ?_⟩
        rw [h7, show v = 1 - w by linarith]
        module
      · rintro ⟨s, hs0, hs1, rfl⟩
        refine ⟨0, 1 - s, s, le_rfl, by linarith, hs0, by ring, ?_, by module⟩
        rw [← h2.2, ← h2.1]
        ring
    · rw [if_neg h2]
      exact ⟨_, rfl, iso_lower E t hBC h1.1 h1.2 h2⟩
  · rw [if_neg h1]
    have h3 : t.B ≤ E ∧ E < t.C := by
      rcases hE with h3 | h3
      · exact absurd h3 h1
      · exact h3
    rw [if_pos h3, if_neg h]
    exact ⟨_, rfl, iso_upper E t hAB h3.1 h3.2⟩

/-- C71 (segment): there is no segment if and only if there is at most one corner at the energy and the others are all above or
all below, or all corners have the same energy. -/
theorem C71_nothing (E : ℝ) (t : Tri V) (hAB : t.A ≤ t.B) (hBC : t.B ≤ t.C) :
    triSegment E t = some [] ↔ E < t.A ∨ t.C < E ∨ (E = t.A ∧ t.A < t.B) ∨ (E = t.C ∧ t.B < t.C) ∨ (t.A = E ∧ t.C = E) := by
  unfold triSegment
  constructor
  · intro h
    by_cases h1 : t.A < E ∧ E ≤ t.B
    · rw [if_pos h1] at h
      split_ifs at h <;> simp at h
    · rw [if_neg h1] at h
      by_cases h2 : t.B ≤ E ∧ E < t.C
      · rw [if_pos h2] at h
        split_ifs at h
        simp at h
      · by_contra hc
        push Not at hc
        obtain ⟨c1, c2, c3, c4, c5⟩ := hc
        rcases c1.lt_or_eq with c | c
        · have d : t.B < E := by
            by_contra hd
            exact h1 ⟨c, not_lt.1 hd⟩
          rcases c2.lt_or_eq with e | e
          · exact h2 ⟨d.le, e⟩
          · exact absurd (c4 e) (by linarith)
        · have d := c3 c.symm
          have e : t.B = E := by linarith
          rcases c2.lt_or_eq with f | f
          · exact h2 ⟨e.le, f⟩
          · exact c5 c f.symm
  · intro h
    rw [if_neg, if_neg]
    · rintro ⟨h1, h2⟩
      rcases h with h | h | h | h | h
      · linarith
      · linarith
      · linarith [h.1, h.2]
      · linarith [h.1, h.2]
      · linarith [h.1, h.2]
    · rintro ⟨h1, h2⟩
      rcases h with h | h | h | h | h
      · linarith
      · linarith
      · linarith [h.1, h.2]
      · linarith [h.1, h.2]
      · linarith [h.1, h.2]

/-- C71 (segment): an exception is raised whenever two corners are at the energy and the third is above. -/
theorem C71_exception (E : ℝ) (t : Tri V) : triSegment E t = none ↔ E = t.A ∧ E = t.B ∧ E < t.C := by
  unfold triSegment
  constructor
  · intro h
    split_ifs at h with h1 h2 h3 h4
    exact ⟨h4.1, h4.1.trans h4.2, h3.2⟩
  · rintro ⟨h1, h2, h3⟩
    rw [if_neg (fun h => by linarith [h.1]), if_pos ⟨h2.ge, h3⟩, if_pos ⟨h1, h1.symm.trans h2⟩]

/-- C71 (segment): in a triangle with corners 0, 1, and i with energies 0, 0, and 1, the line from 0 to 1 should be returned for
zero energy. -/
theorem C71_segment_violated : ∃ t : Tri (ℝ × ℝ), t.A ≤ t.B ∧ t.B ≤ t.C ∧ isoPoints 0 t = between (0, 0) (1, 0) ∧ triSegment 0 t = none := by
  refine ⟨⟨(0, 0), (1, 0), (0, 1), 0, 0, 1⟩, le_rfl, zero_le_one, ?_, (C71_exception _ _).2 ⟨rfl, rfl, zero_lt_one⟩⟩
  ext p
  constructor
  · rintro ⟨u, v, w, hu, hv, hw, h4, h5, rfl⟩
    simp only [mul_zero, add_zero, mul_one, zero_add] at h5
    refine ⟨v, hv, by linarith, ?_⟩
    rw [h5]
    simp
  · rintro ⟨s, hs0, hs1, rfl⟩
    exact ⟨1 - s, s, 0, by linarith, hs0, le_rfl, by ring, by simp, by simp⟩

end

/-! ### Joining -/

section
variable {P : Type}

/-- Specification: number of times that the point `p` is the end of a segment. -/
noncomputable def ends (s : P × P) (p : P) : Nat := (if s.1 = p then 1 else 0) + if s.2 = p then 1 else 0

/-- Specification: segments of a contour. -/
def pieces : List P → List (P × P)
  | [] => []
  | [_] => []
  | x :: y :: l => (x, y) :: pieces (y :: l)

/-- Specification: the same segment, in any direction. -/
def Same (s t : P × P) : Prop := s = t ∨ s = (t.2, t.1)

/-- Specification: number of pieces in a list that are the segment from `s.1` to `s.2` in any direction. -/
noncomputable def times (l : List (P × P)) (s : P × P) : Nat := l.countP fun t => decide (Same t s)

theorem pieces_append (c : List P) (x y : P) : pieces (c ++ [x] ++ [y]) = pieces (c ++ [x]) ++ [(x, y)] := by
  induction c with
  | nil => rfl
  | cons a c ih =>
    cases c with
    | nil => rfl
    | cons b c =>
      show (a, b) :: pieces ((b :: c) ++ [x] ++ [y]) = _
      rw [ih]
      rfl

theorem other_same (s : P × P) (x : P) (h : s.1 = x ∨ s.2 = x) : Same (x, other s x) s ∧ Same (other s x, x) s := by
  unfold other Same
  by_cases h1 : s.1 = x
  · rw [if_pos h1]
    subst h1
    exact ⟨Or.inl rfl, Or.inr rfl⟩
  · rw [if_neg h1]
    rcases h with h | h
    · exact absurd h h1
    · subst h
      exact ⟨Or.inr rfl, Or.inl rfl⟩

/-- All pieces drawn so far. -/
def Joining.drawn (s : Joining P) : List (P × P) := (s.finished ++ [s.contour]).flatMap pieces

theorem drawn_step (s t : Joining P) (h : JoinStep s t) (hc : s.contour ≠ []) :
    ∃ r ∈ s.points, t.points = s.points.erase r ∧ ∃ r', Same r' r ∧ t.drawn.Perm (r' :: s.drawn) ∧ t.contour ≠ [] := by
  cases h with
  | last points c x finished r hs h =>
    refine ⟨r, hs, rfl, (x, other r x), (other_same r x h).1, ?_, by simp⟩
    simp only [Joining.drawn, List.flatMap_append, List.flatMap_cons, List.flatMap_nil, List.append_nil, pieces_append]
    rw [← List.append_assoc]
    exact List.perm_append_singleton _ _
  | first points c x y finished r hs hl hy h =>
    refine ⟨r, hs, rfl, (other r x, x), (other_same r x h).2, ?_, by simp⟩
    simp only [Joining.drawn, List.flatMap_append, List.flatMap_cons, List.flatMap_nil, List.append_nil]
    show ((finished.flatMap pieces) ++ ((other r x, x) :: pieces (x :: c))).Perm _
    exact List.perm_middle
  | new points c finished r hs h =>
    refine ⟨r, hs, rfl, r, Or.inl rfl, ?_, by simp⟩
    simp only [Joining.drawn, List.flatMap_append, List.flatMap_cons, List.flatMap_nil, List.append_nil]
    show ((finished.flatMap pieces) ++ pieces c ++ [(r.1, r.2)]).Perm _
    exact List.perm_append_singleton _ _

theorem same_comm (s t r : P × P) (h : Same s t) : Same s r ↔ Same t r := by
  unfold Same at *
  rcases h with rfl | rfl
  · rfl
  · obtain ⟨t1, t2⟩ := t
    obtain ⟨r1, r2⟩ := r
    simp only [Prod.mk.injEq]
    tauto

theorem times_cons (r : P × P) (l : List (P × P)) (s : P × P) : times (r :: l) s = times l s + if Same r s then 1 else 0 := by
  unfold times
  rw [List.countP_cons]
  simp

theorem times_perm {l l' : List (P × P)} (h : l.Perm l') (s : P × P) : times l s = times l' s := h.countP_eq _

/-- Number of elements of a set that are a given segment in any direction. -/
noncomputable def timesIn (S : Finset (P × P)) (s : P × P) : Nat := (S.filter fun t => Same t s).card

theorem timesIn_erase (S : Finset (P × P)) (r s : P × P) (h : r ∈ S) : timesIn S s = timesIn (S.erase r) s + if Same r s then 1 else 0 := by
  unfold timesIn
  conv_lhs => rw [← Finset.insert_erase h, Finset.filter_insert]
  split_ifs with h1
  · rw [Finset.card_insert_of_notMem (by simp)]
  · rfl

theorem joins_times (s : Joining P) (r : List (List P)) (h : Joins s r) (hc : s.contour ≠ []) (g : P × P) :
    times (r.flatMap pieces) g = times s.drawn g + timesIn s.points g := by
  induction h with
  | done c finished => simp [Joining.drawn, timesIn]
  | step s t r h hr ih =>
    obtain ⟨e, he, h1, e', h2, h3, h4⟩ := drawn_step s t h hc
    rw [ih h4, times_perm h3, times_cons, h1, timesIn_erase s.points e g he]
    simp only [same_comm e' e g h2]
    omega

/-- C71 (joining): however the set is ordered, the contours contain each segment exactly as often as it has been found (in any of
the two directions), and nothing else. -/
theorem C71_join (points : Finset (P × P)) (r : List (List P)) (h : Contours points r) (g : P × P) :
    times (r.flatMap pieces) g = timesIn points g := by
  cases h with
  | none h =>
    subst h
    simp [times, timesIn]
  | some s hs r hr =>
    rw [joins_times _ _ hr (by simp), timesIn_erase points s g hs]
    simp only [Joining.drawn, List.nil_append, List.flatMap_cons, List.flatMap_nil, List.append_nil]
    show times ((s.1, s.2) :: []) g + _ = _
    rw [times_cons]
    simp [times]
    omega

/-- Every contour has at least two points. -/
theorem joins_long (s : Joining P) (r : List (List P)) (h : Joins s r) (hc : 2 ≤ s.contour.length) (hf : ∀ c ∈ s.finished, 2 ≤ c.length) :
    ∀ c ∈ r, 2 ≤ c.length := by
  induction h with
  | done c finished =>
    intro c' h
    rcases List.mem_append.1 h with h | h
    · exact hf _ h
    · rw [List.mem_singleton.1 h]
      exact hc
  | step s t r h hr ih =>
    cases h with
    | last points c x finished r hs h =>
      refine ih ?_ hf
      simp
    | first points c x y finished r hs hl hy h =>
      refine ih ?_ hf
      simp
    | new points c finished r hs h =>
      refine ih (by simp) ?_
      intro c' h
      rcases List.mem_append.1 h with h | h
      · exact hf _ h
      · rw [List.mem_singleton.1 h]
        exact hc

/-- C71 (joining): no contour is trivial. -/
theorem C71_long (points : Finset (P × P)) (r : List (List P)) (h : Contours points r) : ∀ c ∈ r, 2 ≤ c.length := by
  cases h with
  | none h => simp
  | some s hs r hr => exact joins_long _ _ hr (by simp) (by simp)

/-- C71 (joining): the loop always ends with a result, whatever the order of the set. -/
theorem C71_progress (s : Joining P) (hc : s.contour ≠ []) (hp : s.points.Nonempty) : ∃ t, JoinStep s t := by
  obtain ⟨points, c, finished⟩ := s
  simp only at hc hp
  by_cases h1 : ∃ s ∈ points, ∃ x, c.getLast? = some x ∧ (s.1 = x ∨ s.2 = x)
  · obtain ⟨s, hs, x, hx, h⟩ := h1
    have : c = c.dropLast ++ [x] := by
      rw [List.getLast?_eq_getLast_of_ne_nil hc, Option.some_inj] at hx
      rw [← hx, List.dropLast_append_getLast]
    rw [this]
    exact ⟨_, JoinStep.last _ _ _ _ s hs h⟩
  · push Not at h1
    by_cases h2 : ∃ s ∈ points, ∃ x, c.head? = some x ∧ (s.1 = x ∨ s.2 = x)
    · obtain ⟨s, hs, x, hx, h⟩ := h2
      cases c with
      | nil => exact absurd rfl hc
      | cons a c =>
        rw [List.head?_cons, Option.some_inj] at hx
        subst hx
        have hl : (a :: c).getLast? = some ((a :: c).getLast (by simp)) := List.getLast?_eq_getLast_of_ne_nil (by simp)
        have h3 := h1 s hs _ hl
        exact ⟨_, JoinStep.first _ _ _ _ _ s hs hl (by tauto) h⟩
    · push Not at h2
      obtain ⟨s, hs⟩ := hp
      refine ⟨_, JoinStep.new _ _ _ s hs ?_⟩
      intro s hs x hx
      rcases hx with hx | hx
      · have := h2 s hs x hx
        tauto
      · have := h1 s hs x hx
        tauto

theorem joins_exists (n : Nat) (s : Joining P) (hc : s.contour ≠ []) (hn : s.points.card = n) : ∃ r, Joins s r := by
  induction n generalizing s with
  | zero =>
    obtain ⟨points, c, finished⟩ := s
    have : points = ∅ := Finset.card_eq_zero.1 hn
    subst this
    exact ⟨_, Joins.done c finished⟩
  | succ n ih =>
    obtain ⟨t, ht⟩ := C71_progress s hc (Finset.card_pos.1 (by omega))
    obtain ⟨e, he, h1, -, -, -, h4⟩ := drawn_step s t ht hc
    obtain ⟨r, hr⟩ := ih t h4 (by rw [h1, Finset.card_erase_of_mem he]; omega)
    exact ⟨r, Joins.step s t r ht hr⟩

/-- C71 (joining): there is a result for any set of segments. -/
theorem C71_result (points : Finset (P × P)) : ∃ r, Contours points r := by
  rcases points.eq_empty_or_nonempty with h | ⟨s, hs⟩
  · exact ⟨[], Contours.none h⟩
  · obtain ⟨r, hr⟩ := joins_exists _ ⟨points.erase s, [s.1, s.2], []⟩ (by simp) rfl
    exact ⟨r, Contours.some s hs r hr⟩

/-! ### Closed contours -/

/-- Number of ends of segments at a point. -/
noncomputable def degree (l : List (P × P)) (p : P) : Nat := (l.map fun s => ends s p).sum

theorem ends_same (s t : P × P) (h : Same s t) (p : P) : ends s p = ends t p := by
  rcases h with rfl | rfl
  · rfl
  · unfold ends
    simp only
    omega

/-- Along a contour, each point but the first and the last has as many pieces before as after it. -/
theorem degree_pieces (c : List P) (x y p : P) (hx : c.head? = some x) (hy : c.getLast? = some y) :
    Even (degree (pieces c) p + ends (x, y) p) := by
  induction c generalizing x with
  | nil => simp at hx
  | cons a c ih =>
    rw [List.head?_cons, Option.some_inj] at hx
    subst hx
    cases c with
    | nil =>
      simp only [List.getLast?_singleton, Option.some_inj] at hy
      subst hy
      simp only [pieces, degree, List.map_nil, List.sum_nil, zero_add, ends]
      exact ⟨_, rfl⟩
    | cons b c =>
      have h := ih b rfl (by rw [← hy, List.getLast?_cons_cons])
      simp only [pieces, degree, List.map_cons, List.sum_cons, ends] at h ⊢
      obtain ⟨k, hk⟩ := h
      refine ⟨k + (if a = p then 1 else 0), ?_⟩
      omega

/-- Closed contours. -/
def Closed (c : List P) : Prop := c.head? = c.getLast?

theorem degree_closed (c : List P) (h : Closed c) (p : P) : Even (degree (pieces c) p) := by
  cases hx : c.head? with
  | none =>
    rw [List.head?_eq_none_iff] at hx
    subst hx
    simp [pieces, degree]
  | some x =>
    have hy : c.getLast? = some x := by rw [← h, hx]
    have := degree_pieces c x x p hx hy
    rw [Nat.even_add] at this
    refine this.2 ?_
    unfold ends
    exact ⟨_, rfl⟩

theorem degree_append (l l' : List (P × P)) (p : P) : degree (l ++ l') p = degree l p + degree l' p := by
  simp [degree]

theorem degree_perm {l l' : List (P × P)} (h : l.Perm l') (p : P) : degree l p = degree l' p := (h.map _).sum_eq

/-- Number of ends of segments of a set at a point. -/
noncomputable def degreeIn (S : Finset (P × P)) (p : P) : Nat := ∑ s ∈ S, ends s p

theorem degreeIn_erase (S : Finset (P × P)) (r : P × P) (h : r ∈ S) (p : P) : degreeIn S p = degreeIn (S.erase r) p + ends r p := by
  unfold degreeIn
  rw [Finset.sum_erase_add _ _ h]

theorem degreeIn_pos (S : Finset (P × P)) (p : P) (h : ∀ s ∈ S, ¬(s.1 = p ∨ s.2 = p)) : degreeIn S p = 0 := by
  unfold degreeIn
  refine Finset.sum_eq_zero fun s hs => ?_
  have := h s hs
  push Not at this
  simp [ends, this.1, this.2]

theorem flatMap_even (l : List (List P)) (h : ∀ c ∈ l, Closed c) (p : P) : Even (degree (l.flatMap pieces) p) := by
  induction l with
  | nil => simp [degree]
  | cons a l ih =>
    rw [List.flatMap_cons, degree_append]
    exact (degree_closed a (h a List.mem_cons_self) p).add (ih fun c hc => h c (List.mem_cons_of_mem _ hc))

/-- A contour to which nothing can be added is closed. -/
theorem finished_closed (s : Joining P) (hc : s.contour ≠ []) (hf : ∀ c ∈ s.finished, Closed c)
    (he : ∀ p, Even (degree s.drawn p + degreeIn s.points p))
    (h : ∀ e ∈ s.points, ∀ x, s.contour.getLast? = some x → ¬(e.1 = x ∨ e.2 = x)) : Closed s.contour := by
  obtain ⟨points, c, finished⟩ := s
  simp only at hc hf h ⊢
  cases hx : c.head? with
  | none => exact absurd (List.head?_eq_none_iff.1 hx) hc
  | some x =>
    have hy : c.getLast? = some (c.getLast hc) := List.getLast?_eq_getLast_of_ne_nil hc
    generalize c.getLast hc = y at hy
    unfold Closed
    rw [hx, hy]
    by_contra hxy
    have hne : x ≠ y := fun h => hxy (by rw [h])
    have h1 := he y
    simp only [Joining.drawn, List.flatMap_append, List.flatMap_cons, List.flatMap_nil, List.append_nil, degree_append] at h1
    rw [degreeIn_pos points y (fun e h2 => h e h2 y hy), add_zero] at h1
    have h2 := flatMap_even finished hf y
    have h3 := degree_pieces c x y y hx hy
    have h4 : ends (x, y) y = 1 := by simp [ends, hne]
    rw [h4] at h3
    rw [Nat.even_add] at h1
    have h5 := h1.1 h2
    rw [Nat.even_add_one] at h3
    exact h3 h5

theorem joins_closed (s : Joining P) (r : List (List P)) (hr : Joins s r) (hc : s.contour ≠ []) (hf : ∀ c ∈ s.finished, Closed c)
    (he : ∀ p, Even (degree s.drawn p + degreeIn s.points p)) : ∀ c ∈ r, Closed c := by
  induction hr with
  | done c finished =>
    intro c' h
    rcases List.mem_append.1 h with h | h
    · exact hf _ h
    · rw [List.mem_singleton.1 h]
      exact finished_closed ⟨∅, c, finished⟩ hc hf he (by simp)
  | step s t r h hr ih =>
    obtain ⟨e, hm, h1, e', h2, h3, h4⟩ := drawn_step s t h hc
    have he' : ∀ p, Even (degree t.drawn p + degreeIn t.points p) := by
      intro p
      have := he p
      rw [degreeIn_erase s.points e hm] at this
      rw [degree_perm h3, h1]
      show Even (ends e' p + degree s.drawn p + _)
      rw [ends_same e' e h2]
      convert this using 1
      ring
    refine ih h4 ?_ he'
    cases h with
    | last points c x finished r hs h => exact hf
    | first points c x y finished r hs hl hy h => exact hf
    | new points c finished r hs h =>
      intro c' h5
      rcases List.mem_append.1 h5 with h5 | h5
      · exact hf _ h5
      · rw [List.mem_singleton.1 h5]
        exact finished_closed ⟨points, c, finished⟩ hc hf he fun e h6 x hx => h e h6 x (Or.inr hx)

/-- C71 (joining): if an even number of segments ends at each point (no end of a line on the boundary), all contours are closed. -/
theorem C71_closed (points : Finset (P × P)) (h : ∀ p, Even (degreeIn points p)) (r : List (List P)) (hr : Contours points r) :
    ∀ c ∈ r, Closed c := by
  cases hr with
  | none h => simp
  | some s hs r hr =>
    refine joins_closed _ _ hr (by simp) (by simp) fun p => ?_
    have := h p
    rw [degreeIn_erase points s hs] at this
    simp only [Joining.drawn, List.nil_append, List.flatMap_cons, List.flatMap_nil, List.append_nil]
    show Even (ends (s.1, s.2) p + 0 + _)
    convert this using 1
    ring

/-! ### Maximal contours -/

theorem mem_pieces (c : List P) (hc : 2 ≤ c.length) (x : P) (hx : x ∈ c) : ∃ s ∈ pieces c, s.1 = x ∨ s.2 = x := by
  induction c with
  | nil => simp at hx
  | cons a c ih =>
    cases c with
    | nil => simp at hc
    | cons b c =>
      rcases List.mem_cons.1 hx with rfl | hx
      · exact ⟨(x, b), by simp [pieces], Or.inl rfl⟩
      · cases c with
        | nil =>
          rw [List.mem_singleton.1 hx]
          exact ⟨(a, b), by simp [pieces], Or.inr rfl⟩
        | cons d c =>
          obtain ⟨s, hs, h⟩ := ih (by simp) hx
          exact ⟨s, List.mem_cons_of_mem _ hs, h⟩

/-- Ends of a contour. -/
def IsEnd (c : List P) (x : P) : Prop := c.head? = some x ∨ c.getLast? = some x

/-- Segments drawn after a state come from the remaining set. -/
structure Maximal (s : Joining P) : Prop where
  pairs : s.finished.Pairwise fun c d => ∀ x ∈ d, ¬IsEnd c x
  current : ∀ c ∈ s.finished, ∀ x ∈ s.contour, ¬IsEnd c x
  remaining : ∀ c ∈ s.finished, ∀ e ∈ s.points, ∀ x, IsEnd c x → ¬(e.1 = x ∨ e.2 = x)

theorem other_end (s : P × P) (x y : P) (h : s.1 = x ∨ s.2 = x) (hy : other s x = y) : s.1 = y ∨ s.2 = y := by
  unfold other at hy
  split_ifs at hy
  · exact Or.inr hy
  · exact Or.inl hy

theorem maximal_step (s t : Joining P) (h : JoinStep s t) (hm : Maximal s) : Maximal t := by
  cases h with
  | last points c x finished r hs h =>
    refine ⟨hm.pairs, fun d hd y hy he => ?_, fun d hd e he => hm.remaining d hd e (Finset.mem_of_mem_erase he)⟩
    rcases List.mem_append.1 hy with hy | hy
    · exact hm.current d hd y hy he
    · exact hm.remaining d hd r hs y he (other_end r x y h (List.mem_singleton.1 hy).symm)
  | first points c x y finished r hs hl hy h =>
    refine ⟨hm.pairs, fun d hd z hz he => ?_, fun d hd e he => hm.remaining d hd e (Finset.mem_of_mem_erase he)⟩
    rcases List.mem_cons.1 hz with hz | hz
    · exact hm.remaining d hd r hs z he (other_end r x z h hz.symm)
    · exact hm.current d hd z hz he
  | new points c finished r hs h =>
    refine ⟨?_, ?_, ?_⟩
    · rw [List.pairwise_append]
      refine ⟨hm.pairs, List.pairwise_singleton _ _, fun d hd e he => ?_⟩
      rw [List.mem_singleton.1 he]
      exact hm.current d hd
    · intro d hd y hy he
      have hy' : r.1 = y ∨ r.2 = y := by
        simp only [List.mem_cons, List.not_mem_nil, or_false] at hy
        rcases hy with hy | hy
        · exact Or.inl hy.symm
        · exact Or.inr hy.symm
      rcases List.mem_append.1 hd with hd | hd
      · exact hm.remaining d hd r hs y he hy'
      · rw [List.mem_singleton.1 hd] at he
        exact h r hs y he hy'
    · intro d hd e he x hx
      rcases List.mem_append.1 hd with hd | hd
      · exact hm.remaining d hd e (Finset.mem_of_mem_erase he) x hx
      · rw [List.mem_singleton.1 hd] at hx
        exact h e (Finset.mem_of_mem_erase he) x hx

/-- C71 (joining): contours are as long as possible: an end of a contour is not part of any later contour. -/
theorem C71_maximal (points : Finset (P × P)) (r : List (List P)) (hr : Contours points r) :
    r.Pairwise fun c d => ∀ x ∈ d, ¬IsEnd c x := by
  cases hr with
  | none h => exact List.Pairwise.nil
  | some s hs r hr =>
    have key : ∀ (s : Joining P) (r : List (List P)), Joins s r → Maximal s → r.Pairwise fun c d => ∀ x ∈ d, ¬IsEnd c x := by
      intro s r h hm
      induction h with
      | done c finished =>
        rw [List.pairwise_append]
        refine ⟨hm.pairs, List.pairwise_singleton _ _, fun d hd e he => ?_⟩
        rw [List.mem_singleton.1 he]
        exact hm.current d hd
      | step s t r h hr ih => exact ih (maximal_step s t h hm)
    exact key _ _ hr ⟨List.Pairwise.nil, by simp, by simp⟩

end

/-! ### Processes -/

section
variable {V : Type} [AddCommGroup V] [Module ℝ V]

theorem mapM_mem {α β : Type} (f : α → Option β) (l : List α) (r : List β) (h : l.mapM f = some r) (b : β) :
    b ∈ r ↔ ∃ a ∈ l, f a = some b := by
  induction l generalizing r with
  | nil =>
    simp only [List.mapM_nil, Option.pure_def, Option.some_inj] at h
    subst h
    simp
  | cons a l ih =>
    rw [List.mapM_cons] at h
    cases h1 : f a with
    | none => simp [h1] at h
    | some c =>
      cases h2 : l.mapM f with
      | none => simp [h1, h2] at h
      | some d =>
        simp only [h1, h2, Option.bind_eq_bind, Option.bind_some, Option.pure_def, Option.some_inj] at h
        subst h
        rw [List.mem_cons, ih d h2]
        constructor
        · rintro (rfl | ⟨x, hx, h⟩)
          · exact ⟨a, List.mem_cons_self, h1⟩
          · exact ⟨x, List.mem_cons_of_mem _ hx, h⟩
        · rintro ⟨x, hx, h⟩
          rcases List.mem_cons.1 hx with rfl | hx
          · rw [h1, Option.some_inj] at h
            exact Or.inl h.symm
          · exact Or.inr ⟨x, hx, h⟩

theorem mapM_some {α β : Type} (f : α → Option β) (l : List α) (h : ∀ a ∈ l, ∃ b, f a = some b) : ∃ r, l.mapM f = some r := by
  induction l with
  | nil => exact ⟨[], rfl⟩
  | cons a l ih =>
    obtain ⟨b, hb⟩ := h a List.mem_cons_self
    obtain ⟨r, hr⟩ := ih fun x hx => h x (List.mem_cons_of_mem _ hx)
    exact ⟨b :: r, by rw [List.mapM_cons, hb, hr]; rfl⟩

theorem mapM_none {α β : Type} (f : α → Option β) (l : List α) (a : α) (ha : a ∈ l) (h : f a = none) (r : List β) : l.mapM f ≠ some r := by
  induction l generalizing r with
  | nil => simp at ha
  | cons b l ih =>
    rw [List.mapM_cons]
    rcases List.mem_cons.1 ha with rfl | ha
    · simp [h]
    · cases h1 : f b with
      | none => simp
      | some c =>
        cases h2 : l.mapM f with
        | none => simp
        | some d => exact absurd h2 (ih ha d)

theorem mem_dealFrom {α : Type} (size rank n : Nat) (l : List α) (x : α) :
    x ∈ MPI.dealFrom size rank n l ↔ ∃ i, l[i]? = some x ∧ rank = (n + i) % size := by
  induction l generalizing n with
  | nil => simp [MPI.dealFrom]
  | cons a l ih =>
    have key : (∃ i, (a :: l)[i]? = some x ∧ rank = (n + i) % size) ↔
        (a = x ∧ rank = n % size) ∨ ∃ i, l[i]? = some x ∧ rank = (n + 1 + i) % size := by
      constructor
      · rintro ⟨i, h1, h2⟩
        cases i with
        | zero => exact Or.inl ⟨by simpa using h1, h2⟩
        | succ i => exact Or.inr ⟨i, by simpa using h1, by rw [h2]; congr 1; omega⟩
      · rintro (⟨h1, h2⟩ | ⟨i, h1, h2⟩)
        · exact ⟨0, by simpa using h1, h2⟩
        · exact ⟨i + 1, by simpa using h1, by rw [h2]; congr 1; omega⟩
    rw [key, ← ih]
    have e : MPI.dealFrom size rank n (a :: l) = if rank = n % size then a :: MPI.dealFrom size rank (n + 1) l else MPI.dealFrom size rank (n + 1) l := rfl
    rw [e]
    split
    · rename_i h
      rw [List.mem_cons]
      constructor
      · rintro (h1 | h1)
        · exact Or.inl ⟨h1.symm, h⟩
        · exact Or.inr h1
      · rintro (h1 | h1)
        · exact Or.inl h1.1.symm
        · exact Or.inr h1
    · rename_i h
      constructor
      · exact Or.inr
      · rintro (h1 | h1)
        · exact absurd h1.2 h
        · exact h1

theorem mem_stride {α : Type} (size : Nat) (hs : 0 < size) (l : List α) (x : α) :
    (∃ rank < size, x ∈ MPI.strideFrom size rank l) ↔ x ∈ l := by
  have e : ∀ rank, rank < size → MPI.strideFrom size rank l = MPI.dealFrom size rank 0 l := by
    intro rank h
    refine MPI.strideFrom_eq_dealFrom size rank h 0 rank ?_ l
    rw [Nat.zero_mod, Nat.sub_zero, Nat.add_mod_right, Nat.mod_eq_of_lt h]
  constructor
  · rintro ⟨rank, h, hx⟩
    rw [e rank h, mem_dealFrom] at hx
    obtain ⟨i, h1, -⟩ := hx
    exact List.mem_of_getElem? h1
  · intro hx
    obtain ⟨i, hi, h⟩ := List.getElem_of_mem hx
    refine ⟨i % size, Nat.mod_lt _ hs, ?_⟩
    rw [e _ (Nat.mod_lt _ hs), mem_dealFrom]
    exact ⟨i, by rw [List.getElem?_eq_getElem hi, h], by rw [zero_add]⟩

theorem mem_mySegments (E : ℝ) (ts : List (Tri V)) (l : List (V × V)) (h : mySegments E ts = some l) (s : V × V) :
    s ∈ l ↔ ∃ t ∈ ts, ∃ l, triSegment E t = some l ∧ s ∈ l := by
  unfold mySegments at h
  rw [Option.map_eq_some_iff] at h
  obtain ⟨m, h1, rfl⟩ := h
  rw [List.mem_flatten]
  constructor
  · rintro ⟨k, hk, hs⟩
    obtain ⟨t, ht, h2⟩ := (mapM_mem _ _ _ h1 k).1 hk
    exact ⟨t, ht, k, h2, hs⟩
  · rintro ⟨t, ht, k, h2, hs⟩
    exact ⟨k, (mapM_mem _ _ _ h1 k).2 ⟨t, ht, h2⟩, hs⟩

/-- C71: the set of segments does not depend on the number of processes: it contains the segments of all triangles. -/
theorem C71_processes (size : Nat) (hs : 0 < size) (E : ℝ) (ts : List (Tri V)) (S : Finset (V × V)) (h : allSegments size E ts = some S)
    (s : V × V) : s ∈ S ↔ ∃ t ∈ ts, ∃ l, triSegment E t = some l ∧ s ∈ l := by
  unfold allSegments at h
  rw [Option.map_eq_some_iff] at h
  obtain ⟨m, h1, rfl⟩ := h
  rw [List.mem_toFinset, List.mem_flatten]
  constructor
  · rintro ⟨k, hk, hs'⟩
    obtain ⟨rank, hr, h2⟩ := (mapM_mem _ _ _ h1 k).1 hk
    obtain ⟨t, ht, h3⟩ := (mem_mySegments E _ k h2 s).1 hs'
    exact ⟨t, (mem_stride size hs ts t).1 ⟨rank, List.mem_range.1 hr, ht⟩, h3⟩
  · rintro ⟨t, ht, h3⟩
    obtain ⟨rank, hr, ht'⟩ := (mem_stride size hs ts t).2 ht
    cases h2 : mySegments E (MPI.strideFrom size rank ts) with
    | none =>
      exfalso
      exact mapM_none (fun rank => mySegments E (MPI.strideFrom size rank ts)) _ rank (List.mem_range.2 hr) h2 m h1
    | some k => exact ⟨k, (mapM_mem _ _ _ h1 k).2 ⟨rank, List.mem_range.2 hr, h2⟩, (mem_mySegments E _ k h2 s).2 ⟨t, ht', h3⟩⟩

/-- C71: no exception unless a triangle has two corners at the lowest energy, which is the given one. -/
theorem C71_defined_partial (size : Nat) (E : ℝ) (ts : List (Tri V)) (h : ∀ t ∈ ts, ¬(E = t.A ∧ E = t.B ∧ E < t.C)) (hs : 0 < size) :
    ∃ S, allSegments size E ts = some S := by
  unfold allSegments
  obtain ⟨m, hm⟩ : ∃ m, (List.range size).mapM (fun rank => mySegments E (MPI.strideFrom size rank ts)) = some m := by
    refine mapM_some _ _ fun rank hr => ?_
    unfold mySegments
    obtain ⟨k, hk⟩ : ∃ k, (MPI.strideFrom size rank ts).mapM (triSegment E) = some k := by
      refine mapM_some _ _ fun t ht => ?_
      cases h1 : triSegment E t with
      | none => exact absurd ((C71_exception E t).1 h1) (h t ((mem_stride size hs ts t).1 ⟨rank, List.mem_range.1 hr, ht⟩))
      | some l => exact ⟨l, rfl⟩
    exact ⟨_, by rw [hk]; rfl⟩
  exact ⟨_, by rw [hm]; rfl⟩

end

/-! ### Example -/

/-- Example: the boundary of a triangle becomes one closed contour with four points, or is at least drawn completely. -/
example (r : List (List Nat)) (h : Contours ({(1, 2), (2, 3), (1, 3)} : Finset (Nat × Nat)) r) : ∀ c ∈ r, Closed c := by
  refine C71_closed _ (fun p => ?_) r h
  have e : degreeIn ({(1, 2), (2, 3), (1, 3)} : Finset (Nat × Nat)) p = 2 * ((if 1 = p then 1 else 0) + (if 2 = p then 1 else 0) + if 3 = p then 1 else 0) := by
    unfold degreeIn
    rw [Finset.sum_insert (by decide), Finset.sum_insert (by decide), Finset.sum_singleton]
    simp only [ends]
    split_ifs <;> omega
  rw [e]
  exact even_two_mul _

/-- Example: a segment through a triangle at one quarter of the energy range. -/
example : ∃ s, triSegment (1 / 4) (⟨(0, 0), (1, 0), (0, 1), 0, 1 / 2, 1⟩ : Tri (ℝ × ℝ)) = some [s] ∧
    isoPoints (1 / 4) (⟨(0, 0), (1, 0), (0, 1), 0, 1 / 2, 1⟩ : Tri (ℝ × ℝ)) = between s.1 s.2 :=
  C71_segment_partial _ _ (by norm_num) (by norm_num) (Or.inl (by norm_num)) (by norm_num)

end Verif.Isoline
