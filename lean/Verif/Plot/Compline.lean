import Mathlib.Data.Real.Basic
import Mathlib.Algebra.BigOperators.Intervals
import Mathlib.Algebra.BigOperators.Field
import Mathlib.Tactic.Ring
import Mathlib.Tactic.Linarith
import Mathlib.Tactic.LinearCombination

/-!
# Model of `elphmod/plot.py` 474-512: composition along a line

Exact arithmetic. Arrays are functions of their indices, together with their sizes: `nx` points, `nc` components.
-/

namespace Verif.Plot

open Finset

/-- Array of lines. -/
abbrev Lines := Nat → Nat → ℝ

/-- `elphmod/plot.py` 481-484: cumulated composition. -/
def linesLoop (composition : Nat → Nat → ℝ) : Nat → Lines
  | 0 => fun _ _ => 0
  | ic + 1 =>
    let lines := linesLoop composition ic
    fun i => if i = ic + 1 then fun ix => lines ic ix + composition ix ic else lines i

/-- One round of the loop in `elphmod/plot.py` 487-488. -/
noncomputable def centerStep (y : Nat → ℝ) (nc : Nat) (lines : Lines) (ic : Nat) : Lines :=
  fun i => if i = ic then fun ix => lines ic ix + (y ix - lines nc ix / 2) else lines i

/-- `elphmod/plot.py` 481-488. -/
noncomputable def compLines (y : Nat → ℝ) (composition : Nat → Nat → ℝ) (nc : Nat) (center : Bool) : Lines :=
  let lines := linesLoop composition nc
  if center then (List.range (nc + 1)).foldl (centerStep y nc) lines else lines

/-- `elphmod/plot.py` 493-495: `X`. -/
def compX (x : Nat → ℝ) (nx j : Nat) : ℝ := if j < nx then x j else if j < 2 * nx then x (2 * nx - 1 - j) else x 0

/-- `elphmod/plot.py` 497-500: `Y[ic]`. -/
def compY (lines : Lines) (nx ic j : Nat) : ℝ :=
  if j < nx then lines ic j else if j < 2 * nx then lines (ic + 1) (2 * nx - 1 - j) else lines ic 0

/-- `elphmod/plot.py` 474-512 (`compline`): point with number `j` of the polygon with number `ic`; every second polygon is
reversed. -/
noncomputable def compline (x y : Nat → ℝ) (composition : Nat → Nat → ℝ) (nx nc : Nat) (center : Bool) (ic j : Nat) : ℝ × ℝ :=
  let lines := compLines y composition nc center
  let j' := if ic % 2 = 0 then j else 2 * nx - j
  (compX x nx j', compY lines nx ic j')

/-! ### Specification -/

/-- Signed area enclosed by a closed line through `n + 1` points (positive: counterclockwise). -/
noncomputable def signedArea (P : Nat → ℝ × ℝ) (n : Nat) : ℝ :=
  (∑ j ∈ range n, ((P j).1 * (P (j + 1)).2 - (P (j + 1)).1 * (P j).2)) / 2

/-- Integral of data given at points along a line (trapezoidal rule). -/
noncomputable def trapezoid (x c : Nat → ℝ) (nx : Nat) : ℝ :=
  ∑ j ∈ range (nx - 1), (x (j + 1) - x j) * (c j + c (j + 1)) / 2

/-! ### Proofs -/

theorem linesLoop_eq (composition : Nat → Nat → ℝ) (nc i ix : Nat) (h : i ≤ nc) :
    linesLoop composition nc i ix = ∑ ic ∈ range i, composition ix ic := by
  induction nc generalizing i with
  | zero =>
    obtain rfl : i = 0 := by omega
    simp [linesLoop]
  | succ nc ih =>
    unfold linesLoop
    by_cases hi : i = nc + 1
    · subst hi
      simp only [if_true]
      rw [ih nc le_rfl, sum_range_succ]
    · simp only [hi, if_false]
      exact ih i (by omega)

theorem foldl_center (y : Nat → ℝ) (nc : Nat) (lines : Lines) (k : Nat) (hk : k ≤ nc + 1) (i ix : Nat) :
    (List.range k).foldl (centerStep y nc) lines i ix =
      if i < k then lines i ix + (y ix - lines nc ix / 2) else lines i ix := by
  induction k generalizing i with
  | zero => simp
  | succ k ih =>
    rw [List.range_succ, List.foldl_append, List.foldl_cons, List.foldl_nil]
    unfold centerStep
    by_cases hi : i = k
    · subst hi
      simp only [if_true]
      have e := ih (by omega)
      unfold centerStep at e
      rw [e, e, if_neg (lt_irrefl _), if_neg (by omega), if_pos (by omega)]
    · simp only [hi, if_false]
      have e := ih (by omega) i
      unfold centerStep at e
      rw [e]
      by_cases h : i < k
      · rw [if_pos h, if_pos (by omega)]
      · rw [if_neg h, if_neg (by omega)]

theorem compLines_center (y : Nat → ℝ) (composition : Nat → Nat → ℝ) (nc i ix : Nat) (h : i ≤ nc) :
    compLines y composition nc true i ix =
      y ix + (∑ ic ∈ range i, composition ix ic) - (∑ ic ∈ range nc, composition ix ic) / 2 := by
  unfold compLines
  simp only [if_true]
  rw [foldl_center y nc _ (nc + 1) le_rfl, if_pos (by omega), linesLoop_eq _ _ _ _ h, linesLoop_eq _ _ _ _ le_rfl]
  ring

theorem compLines_diff (y : Nat → ℝ) (composition : Nat → Nat → ℝ) (nc ic ix : Nat) (center : Bool) (h : ic < nc) :
    compLines y composition nc center (ic + 1) ix - compLines y composition nc center ic ix = composition ix ic := by
  cases center
  · unfold compLines
    simp only [Bool.false_eq_true, if_false]
    rw [linesLoop_eq _ _ _ _ (by omega), linesLoop_eq _ _ _ _ (by omega), sum_range_succ]
    ring
  · rw [compLines_center _ _ _ _ _ (by omega), compLines_center _ _ _ _ _ (by omega), sum_range_succ]
    ring

/-- Area between two lines. -/
theorem area_between (x l u : Nat → ℝ) (m : Nat) :
    signedArea (fun j => (if j < m + 1 then x j else if j < 2 * (m + 1) then x (2 * (m + 1) - 1 - j) else x 0,
      if j < m + 1 then l j else if j < 2 * (m + 1) then u (2 * (m + 1) - 1 - j) else l 0)) (2 * (m + 1)) =
      trapezoid x (fun j => u j - l j) (m + 1) := by
  set P : Nat → ℝ × ℝ := fun j => (if j < m + 1 then x j else if j < 2 * (m + 1) then x (2 * (m + 1) - 1 - j) else x 0,
      if j < m + 1 then l j else if j < 2 * (m + 1) then u (2 * (m + 1) - 1 - j) else l 0) with hP
  have p1 : ∀ j, j ≤ m → P j = (x j, l j) := by
    intro j hj
    simp only [hP]
    rw [if_pos (by omega), if_pos (by omega)]
  have p2 : ∀ j, j ≤ m → P (m + 1 + j) = (x (m - j), u (m - j)) := by
    intro j hj
    simp only [hP]
    rw [if_neg (by omega), if_pos (by omega), if_neg (by omega), if_pos (by omega),
      show 2 * (m + 1) - 1 - (m + 1 + j) = m - j by omega]
  have p3 : P (m + 1 + (m + 1)) = (x 0, l 0) := by
    simp only [hP]
    rw [if_neg (by omega), if_neg (by omega), if_neg (by omega), if_neg (by omega)]
  unfold signedArea trapezoid
  rw [show 2 * (m + 1) = (m + 1) + (m + 1) by ring, sum_range_add, sum_range_succ _ m, sum_range_succ _ m,
    Nat.add_sub_cancel]
  have s1 : ∑ j ∈ range m, ((P j).1 * (P (j + 1)).2 - (P (j + 1)).1 * (P j).2) =
      ∑ j ∈ range m, (x j * l (j + 1) - x (j + 1) * l j) := by
    refine sum_congr rfl fun j hj => ?_
    have := mem_range.1 hj
    rw [p1 j (by omega), p1 (j + 1) (by omega)]
  have s2 : ∑ j ∈ range m, ((P (m + 1 + j)).1 * (P (m + 1 + j + 1)).2 - (P (m + 1 + j + 1)).1 * (P (m + 1 + j)).2) =
      ∑ j ∈ range m, (x (j + 1) * u j - x j * u (j + 1)) := by
    rw [← sum_range_reflect]
    refine sum_congr rfl fun j hj => ?_
    have := mem_range.1 hj
    rw [p2 (m - 1 - j) (by omega), show m + 1 + (m - 1 - j) + 1 = m + 1 + (m - j) by omega, p2 (m - j) (by omega),
      show m - (m - 1 - j) = j + 1 by omega, show m - (m - j) = j by omega]
  rw [s1, s2, p1 m le_rfl, show m + 1 = m + 1 + 0 by rfl, p2 0 (by omega)]
  rw [show m + 1 + 0 + m = m + 1 + m by rfl, p2 m le_rfl, show m + 1 + m + 1 = m + 1 + (m + 1) by rfl, p3]
  simp only [Nat.sub_zero, Nat.sub_self]
  have tele : ∑ j ∈ range m, (x (j + 1) * (u (j + 1) - l (j + 1)) - x j * (u j - l j)) =
      x m * (u m - l m) - x 0 * (u 0 - l 0) := by
    rw [sum_range_sub (fun j => x j * (u j - l j))]
  have : ∑ j ∈ range m, (x (j + 1) - x j) * (u j - l j + (u (j + 1) - l (j + 1))) / 2 =
      (∑ j ∈ range m, (x j * l (j + 1) - x (j + 1) * l j) + ∑ j ∈ range m, (x (j + 1) * u j - x j * u (j + 1)) +
        ∑ j ∈ range m, (x (j + 1) * (u (j + 1) - l (j + 1)) - x j * (u j - l j))) / 2 := by
    rw [← sum_add_distrib, ← sum_add_distrib, sum_div]
    refine sum_congr rfl fun j _ => ?_
    ring
  rw [this, tele]
  ring

theorem signedArea_reverse (P : Nat → ℝ × ℝ) (n : Nat) : signedArea (fun j => P (n - j)) n = -signedArea P n := by
  unfold signedArea
  rw [← sum_range_reflect, ← neg_div, ← sum_neg_distrib]
  congr 1
  refine sum_congr rfl fun j hj => ?_
  have := mem_range.1 hj
  beta_reduce
  rw [show n - (n - 1 - j) = j + 1 by omega, show n - (n - 1 - j + 1) = j by omega]
  ring

/-- C99: the area of each polygon is the integral of the corresponding component; the polygons are traversed
counterclockwise and clockwise alternately (for increasing `x` and positive components). -/
theorem C99_area (x y : Nat → ℝ) (composition : Nat → Nat → ℝ) (nx nc : Nat) (hx : 0 < nx) (center : Bool) (ic : Nat)
    (hc : ic < nc) :
    signedArea (compline x y composition nx nc center ic) (2 * nx) =
      (-1) ^ ic * trapezoid x (fun ix => composition ix ic) nx := by
  obtain ⟨m, rfl⟩ : ∃ m, nx = m + 1 := ⟨nx - 1, by omega⟩
  have h := area_between x (compLines y composition nc center ic) (compLines y composition nc center (ic + 1)) m
  simp only [compLines_diff y composition nc ic _ center hc] at h
  rcases Nat.even_or_odd ic with he | ho
  · rw [he.neg_one_pow, one_mul, ← h]
    unfold compline
    simp only [Nat.even_iff.1 he, if_true]
    rfl
  · rw [ho.neg_one_pow, neg_one_mul, ← h, ← signedArea_reverse]
    unfold compline
    simp only [Nat.odd_iff.1 ho, one_ne_zero, if_false]
    rfl

/-- C99: neighbouring polygons have the line between them in common: the upper side of each polygon is the lower side of the
next one. -/
theorem C99_adjacent (x y : Nat → ℝ) (composition : Nat → Nat → ℝ) (nx nc : Nat) (center : Bool) (ic ix : Nat) (h : ix < nx) :
    compline x y composition nx nc center ic (if ic % 2 = 0 then 2 * nx - 1 - ix else ix + 1) =
      compline x y composition nx nc center (ic + 1) (if ic % 2 = 0 then 2 * nx - ix else ix) := by
  have key : ∀ lines : Lines, (compX x nx (2 * nx - 1 - ix), compY lines nx ic (2 * nx - 1 - ix)) =
      (compX x nx ix, compY lines nx (ic + 1) ix) := by
    intro lines
    unfold compX compY
    rw [if_neg (by omega), if_pos (by omega), if_pos h, if_neg (by omega), if_pos (by omega), if_pos h,
      show 2 * nx - 1 - (2 * nx - 1 - ix) = ix by omega]
  unfold compline
  by_cases hc : ic % 2 = 0
  · simp only [hc, show ¬(ic + 1) % 2 = 0 by omega, if_true, if_false]
    rw [key, show 2 * nx - (2 * nx - ix) = ix by omega]
  · simp only [hc, show (ic + 1) % 2 = 0 by omega, if_true, if_false]
    rw [show 2 * nx - (ix + 1) = 2 * nx - 1 - ix by omega, key]

/-- C99: the stripes are centred at the line. -/
theorem C99_center (y : Nat → ℝ) (composition : Nat → Nat → ℝ) (nc ix : Nat) :
    (compLines y composition nc true 0 ix + compLines y composition nc true nc ix) / 2 = y ix := by
  rw [compLines_center _ _ _ _ _ (by omega), compLines_center _ _ _ _ _ le_rfl]
  simp
  ring

/-- C99: the polygons are closed. -/
theorem C99_closed (x y : Nat → ℝ) (composition : Nat → Nat → ℝ) (nx nc : Nat) (hx : 0 < nx) (center : Bool) (ic : Nat) :
    compline x y composition nx nc center ic 0 = compline x y composition nx nc center ic (2 * nx) := by
  unfold compline compX compY
  by_cases hc : ic % 2 = 0
  · simp [hc, hx]
  · simp [hc, hx]

/-- Two components at two points. -/
example : compline (fun i => i) (fun _ => 5) (fun _ ic => if ic = 0 then 2 else 4) 2 2 true 0 3 = (0, 4) ∧
    signedArea (compline (fun i => i) (fun _ => 5) (fun _ ic => if ic = 0 then 2 else 4) 2 2 true 1) 4 = -4 := by
  constructor
  · unfold compline compX compY
    simp only [compLines_center _ _ 2 1 _ (by norm_num)]
    norm_num [sum_range_succ]
  · have := C99_area (fun i => i) (fun _ => 5) (fun _ ic => if ic = 0 then 2 else 4) 2 2 (by norm_num) true 1 (by norm_num)
    refine this.trans ?_
    norm_num [trapezoid, sum_range_succ]

end Verif.Plot
