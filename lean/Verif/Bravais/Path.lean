import Verif.Diag.Mesh
import Verif.Bravais.Model
import Mathlib.Tactic.LinearCombination
import Mathlib.Tactic.IntervalCases
import Mathlib.Algebra.BigOperators.Field

/-!
# Model of `path` in `elphmod/bravais.py` 1491-1683

Exact arithmetic. The points are given by crystal coordinates (labels: see `Verif.Bravais.Labels`); `b` are the reciprocal
lattice vectors. Access beyond the end of a list (an exception in Python) is modelled by `none`.
-/

namespace Verif.Bravais

open Verif.Diag (roundEven roundEven_near roundEven_int)

variable {d e : Nat}

/-- `elphmod/bravais.py` 1630: Cartesian coordinates. -/
def cart (b : Fin d → Fin e → ℝ) (p : Fin d → ℝ) : Fin e → ℝ := fun x => ∑ c, p c * b c x

/-- `np.linalg.norm`. -/
noncomputable def norm2 (v : Fin e → ℝ) : ℝ := Real.sqrt (∑ x, v x ^ 2)

/-- Variables `k`, `x`, `corners`, `x0` of `path`. -/
structure PathState (d : Nat) where
  k : List (Fin d → ℝ)
  x : List ℝ
  corners : List Nat
  x0 : ℝ

/-- `elphmod/bravais.py` 1638-1656: segment `i` of the path. -/
noncomputable def pathStep (b : Fin d → Fin e → ℝ) (N moveG : ℝ) (pts : Nat → Fin d → ℝ) (s : PathState d) (i : Nat) :
    PathState d :=
  let dx := norm2 (cart b (pts (i + 1)) - cart b (pts i))
  let n := (max 1 (roundEven (N * dx))).toNat
  let x1 := s.x0 + dx
  open Classical in
  let j0 := if i = 0 ∨ moveG ≠ 0 ∧ pts i = 0 then 0 else 1
  let k := s.k ++ (List.range' j0 (n + 1 - j0)).map fun j : Nat =>
    (n : ℝ)⁻¹ • ((j : ℝ) • pts (i + 1) + ((n : ℝ) - j) • pts i)
  let x := s.x ++ (List.range' j0 (n + 1 - j0)).map fun j : Nat => ((j : ℝ) * x1 + ((n : ℝ) - j) * s.x0) / n
  ⟨k, x, s.corners ++ [k.length - 1], x1⟩

/-- `elphmod/bravais.py` 1632-1656 for `m` points. -/
noncomputable def pathRaw (b : Fin d → Fin e → ℝ) (N moveG : ℝ) (pts : Nat → Fin d → ℝ) (m : Nat) : PathState d :=
  (List.range (m - 1)).foldl (pathStep b N moveG pts) ⟨[], [], [0], 0⟩

/-- `k[i] += moveG * k[j]` -/
def moveTo (moveG : ℝ) (i j : Nat) (k : List (Fin d → ℝ)) : Option (List (Fin d → ℝ)) := do
  let u ← k[i]?
  let v ← k[j]?
  some (k.set i (u + moveG • v))

/-- `elphmod/bravais.py` 1660-1668: treatment of point `i`. -/
noncomputable def moveStep (moveG : ℝ) (pts : Nat → Fin d → ℝ) (corners : List Nat) (k : List (Fin d → ℝ)) (i : Nat) :
    Option (List (Fin d → ℝ)) :=
  open Classical in
  if pts i = 0 then do
    let c ← corners[i]?
    if i = 0 then moveTo moveG c (c + 1) k
    else
      let k ← moveTo moveG c (c - 1) k
      if i ≠ corners.length - 1 then moveTo moveG (c + 1) (c + 2) k else some k
  else some k

/-- `elphmod/bravais.py` 1632-1668: coordinates (without the factor of 2π), distances, corners. -/
noncomputable def pathCrystal (b : Fin d → Fin e → ℝ) (N moveG : ℝ) (pts : Nat → Fin d → ℝ) (m : Nat) :
    Option (List (Fin d → ℝ) × List ℝ × List Nat) :=
  let s := pathRaw b N moveG pts m
  if moveG ≠ 0 then
    ((List.range m).foldlM (moveStep moveG pts s.corners) s.k).map fun k => (k, s.x, s.corners)
  else some (s.k, s.x, s.corners)

/-- `elphmod/bravais.py` 1491-1683 (`path`). -/
noncomputable def path (b : Fin d → Fin e → ℝ) (N moveG : ℝ) (pts : Nat → Fin d → ℝ) (m : Nat) :
    Option (List (Fin d → ℝ) × List ℝ × List Nat) :=
  (pathCrystal b N moveG pts m).map fun r => (r.1.map ((2 * Real.pi) • ·), r.2.1, r.2.2)

/-- `elphmod/bravais.py` 1670-1680: `k_points` (coordinates and weights). -/
def qePoints (k : List (Fin d → ℝ)) (corners : List Nat) : Option (List ((Fin d → ℝ) × Nat)) :=
  (List.range corners.length).mapM fun i => do
    let c ← corners[i]?
    let p ← k[c]?
    some (p, match corners[i + 1]? with | some c' => c' - c | none => 0)

/-! ### Positions of the segments -/

/-- Distance of successive points. -/
noncomputable def gap (b : Fin d → Fin e → ℝ) (pts : Nat → Fin d → ℝ) (i : Nat) : ℝ :=
  norm2 (cart b (pts (i + 1)) - cart b (pts i))

/-- Number of steps. -/
noncomputable def steps (b : Fin d → Fin e → ℝ) (N : ℝ) (pts : Nat → Fin d → ℝ) (i : Nat) : Nat :=
  (max 1 (roundEven (N * gap b pts i))).toNat

open Classical in
/-- Is the point shown twice? -/
noncomputable def twice (moveG : ℝ) (pts : Nat → Fin d → ℝ) (i : Nat) : Nat := if i ≠ 0 ∧ moveG ≠ 0 ∧ pts i = 0 then 1 else 0

/-- Index of a corner. -/
noncomputable def corner (b : Fin d → Fin e → ℝ) (N moveG : ℝ) (pts : Nat → Fin d → ℝ) : Nat → Nat
  | 0 => 0
  | i + 1 => corner b N moveG pts i + twice moveG pts i + steps b N pts i

/-- Index of the first point of a segment. -/
noncomputable def start (b : Fin d → Fin e → ℝ) (N moveG : ℝ) (pts : Nat → Fin d → ℝ) (i : Nat) : Nat :=
  corner b N moveG pts i + twice moveG pts i

/-- Point of a segment. -/
noncomputable def onSeg (b : Fin d → Fin e → ℝ) (N : ℝ) (pts : Nat → Fin d → ℝ) (i j : Nat) : Fin d → ℝ :=
  (steps b N pts i : ℝ)⁻¹ • ((j : ℝ) • pts (i + 1) + ((steps b N pts i : ℝ) - j) • pts i)

/-- Distance from the origin of the path. -/
noncomputable def total (b : Fin d → Fin e → ℝ) (pts : Nat → Fin d → ℝ) (i : Nat) : ℝ := ∑ l ∈ Finset.range i, gap b pts l

noncomputable def distSeg (b : Fin d → Fin e → ℝ) (N : ℝ) (pts : Nat → Fin d → ℝ) (i j : Nat) : ℝ :=
  ((j : ℝ) * total b pts (i + 1) + ((steps b N pts i : ℝ) - j) * total b pts i) / steps b N pts i

section

variable (b : Fin d → Fin e → ℝ) (N moveG : ℝ) (pts : Nat → Fin d → ℝ)

theorem steps_pos (i : Nat) : 0 < steps b N pts i := by
  unfold steps
  have : (1 : ℤ) ≤ max 1 (roundEven (N * gap b pts i)) := le_max_left _ _
  omega

theorem steps_ne (i : Nat) : (steps b N pts i : ℝ) ≠ 0 := Nat.cast_ne_zero.2 (steps_pos b N pts i).ne'

theorem onSeg_zero (i : Nat) : onSeg b N pts i 0 = pts i := by
  unfold onSeg
  rw [Nat.cast_zero, zero_smul, zero_add, sub_zero, smul_smul, inv_mul_cancel₀ (steps_ne b N pts i), one_smul]

theorem onSeg_last (i : Nat) : onSeg b N pts i (steps b N pts i) = pts (i + 1) := by
  unfold onSeg
  rw [sub_self, zero_smul, add_zero, smul_smul, inv_mul_cancel₀ (steps_ne b N pts i), one_smul]

theorem distSeg_zero (i : Nat) : distSeg b N pts i 0 = total b pts i := by
  unfold distSeg
  rw [Nat.cast_zero, zero_mul, zero_add, sub_zero, mul_div_cancel_left₀ _ (steps_ne b N pts i)]

theorem distSeg_last (i : Nat) : distSeg b N pts i (steps b N pts i) = total b pts (i + 1) := by
  unfold distSeg
  rw [sub_self, zero_mul, add_zero, mul_div_cancel_left₀ _ (steps_ne b N pts i)]

theorem corner_succ (i : Nat) : corner b N moveG pts (i + 1) = start b N moveG pts i + steps b N pts i := rfl

theorem corner_mono (i l : Nat) (h : i ≤ l) : corner b N moveG pts i ≤ corner b N moveG pts l := by
  induction l with
  | zero => rw [Nat.le_zero.1 h]
  | succ l ih =>
    rcases Nat.lt_or_ge i (l + 1) with h' | h'
    · exact (ih (by omega)).trans (by rw [corner_succ]; unfold start; omega)
    · rw [show i = l + 1 by omega]

theorem corner_lt (i l : Nat) (h : i < l) : corner b N moveG pts i < corner b N moveG pts l := by
  have h1 := corner_mono b N moveG pts (i + 1) l h
  rw [corner_succ] at h1
  unfold start at h1
  have := steps_pos b N pts i
  omega

theorem raw_spec (t : Nat) :
    let s := (List.range t).foldl (pathStep b N moveG pts) ⟨[], [], [0], 0⟩
    s.x0 = total b pts t ∧
    s.corners = (List.range (t + 1)).map (corner b N moveG pts) ∧
    s.k.length = (if t = 0 then 0 else corner b N moveG pts t + 1) ∧
    s.x.length = s.k.length ∧
    ∀ i j, i < t → j ≤ steps b N pts i →
      s.k[start b N moveG pts i + j]? = some (onSeg b N pts i j) ∧
      s.x[start b N moveG pts i + j]? = some (distSeg b N pts i j) := by
  induction t with
  | zero => simp [total, corner]
  | succ t ih =>
    rw [List.range_succ, List.foldl_append, List.foldl_cons, List.foldl_nil]
    generalize (List.range t).foldl (pathStep b N moveG pts) ⟨[], [], [0], 0⟩ = s at ih
    simp only at ih ⊢
    obtain ⟨h1, h2, h3, h4, h5⟩ := ih
    have hn : (max 1 (roundEven (N * norm2 (cart b (pts (t + 1)) - cart b (pts t))))).toNat = steps b N pts t := rfl
    have hx : s.x0 + norm2 (cart b (pts (t + 1)) - cart b (pts t)) = total b pts (t + 1) := by
      rw [h1, total, total, Finset.sum_range_succ]
      rfl
    have hpos := steps_pos b N pts t
    obtain ⟨j0, hj0, hj1, hlen⟩ : ∃ j0, (open Classical in if t = 0 ∨ moveG ≠ 0 ∧ pts t = 0 then 0 else 1) = j0 ∧ j0 ≤ 1 ∧
        s.k.length = start b N moveG pts t + j0 := by
      refine ⟨_, rfl, by split <;> omega, ?_⟩
      rw [h3]
      unfold start twice
      by_cases ht : t = 0
      · subst ht
        simp [corner]
      · by_cases hz : moveG ≠ 0 ∧ pts t = 0
        · rw [if_neg ht, if_pos (Or.inr hz), if_pos ⟨ht, hz⟩]
        · rw [if_neg ht, if_neg (by tauto), if_neg (by tauto)]
    unfold pathStep
    simp only [hn, hx]
    rw [hj0]
    have hj0t : j0 = 1 → t ≠ 0 ∧ s.k.length = corner b N moveG pts t + 1 := by
      intro h
      have ht : t ≠ 0 := by
        rintro rfl
        simp at hj0
        omega
      exact ⟨ht, by rw [h3, if_neg ht]⟩
    have hkl : s.k.length + (steps b N pts t + 1 - j0) = corner b N moveG pts (t + 1) + 1 := by
      rw [corner_succ]
      omega
    refine ⟨trivial, ?_, ?_, ?_, ?_⟩
    · rw [h2, List.length_append, List.length_map, List.length_range', hkl, List.range_succ (n := t + 1), List.map_append]
      rfl
    · rw [if_neg (by omega), List.length_append, List.length_map, List.length_range', hkl]
    · simp [h4]
    · intro i j hi hj
      by_cases hc : start b N moveG pts i + j < s.k.length
      · rw [List.getElem?_append_left hc, List.getElem?_append_left (by rw [h4]; exact hc)]
        by_cases hit : i < t
        · exact h5 i j hit hj
        · obtain rfl : i = t := by omega
          have hj2 : j = 0 ∧ j0 = 1 := by omega
          obtain ⟨rfl, h01⟩ := hj2
          obtain ⟨ht, hl⟩ := hj0t h01
          obtain ⟨u, rfl⟩ : ∃ u, i = u + 1 := ⟨i - 1, by omega⟩
          have hs : start b N moveG pts (u + 1) = start b N moveG pts u + steps b N pts u := by
            rw [← corner_succ]
            omega
          have := h5 u (steps b N pts u) (by omega) le_rfl
          rw [onSeg_last, distSeg_last] at this
          rw [onSeg_zero, distSeg_zero, Nat.add_zero, hs]
          exact this
      · obtain rfl : i = t := by
          by_contra hne
          have h6 := h5 i j (by omega) hj
          rw [List.getElem?_eq_none (by omega)] at h6
          exact absurd h6.1 (by simp)
        rw [List.getElem?_append_right (by omega), List.getElem?_append_right (by omega), h4, List.getElem?_map,
          List.getElem?_map, List.getElem?_range' (by omega)]
        have e : j0 + 1 * (start b N moveG pts i + j - s.k.length) = j := by omega
        rw [e, h1]
        exact ⟨rfl, rfl⟩

theorem pathRaw_spec (m : Nat) (hm : 2 ≤ m) :
    (pathRaw b N moveG pts m).corners = (List.range m).map (corner b N moveG pts) ∧
    (pathRaw b N moveG pts m).k.length = corner b N moveG pts (m - 1) + 1 ∧
    (pathRaw b N moveG pts m).x.length = corner b N moveG pts (m - 1) + 1 ∧
    ∀ i j, i + 1 < m → j ≤ steps b N pts i →
      (pathRaw b N moveG pts m).k[start b N moveG pts i + j]? = some (onSeg b N pts i j) ∧
      (pathRaw b N moveG pts m).x[start b N moveG pts i + j]? = some (distSeg b N pts i j) := by
  obtain ⟨-, h2, h3, h4, h5⟩ := raw_spec b N moveG pts (m - 1)
  rw [if_neg (by omega)] at h3
  refine ⟨?_, h3, h4.trans h3, fun i j hi hj => h5 i j (by omega) hj⟩
  rw [pathRaw, h2, show m - 1 + 1 = m by omega]

theorem start_zero (i : Nat) : start b N 0 pts i = corner b N 0 pts i := by
  simp [start, twice]

theorem pathCrystal_zero (m : Nat) :
    pathCrystal b N 0 pts m = some ((pathRaw b N 0 pts m).k, (pathRaw b N 0 pts m).x, (pathRaw b N 0 pts m).corners) := by
  simp [pathCrystal]

theorem onSeg_eq (i j : Nat) :
    onSeg b N pts i j = pts i + ((j : ℝ) / steps b N pts i) • (pts (i + 1) - pts i) := by
  have h := steps_ne b N pts i
  unfold onSeg
  ext c
  simp only [Pi.smul_apply, Pi.add_apply, Pi.sub_apply, smul_eq_mul]
  field_simp
  ring

theorem distSeg_eq (i j : Nat) :
    distSeg b N pts i j = total b pts i + (j : ℝ) / steps b N pts i * gap b pts i := by
  have h := steps_ne b N pts i
  have ht : total b pts (i + 1) = total b pts i + gap b pts i := Finset.sum_range_succ _ _
  unfold distSeg
  rw [ht]
  field_simp
  ring

/-- C103: the path visits the given points in the given order; in between, there are as many equal steps as requested
(at least one), along the straight line. -/
theorem C103_path (m : Nat) (hm : 2 ≤ m) : ∃ k x c, path b N 0 pts m = some (k, x, c) ∧
    c.length = m ∧ x.length = k.length ∧ c[0]? = some 0 ∧ c[m - 1]? = some (k.length - 1) ∧ 0 < k.length ∧
    ∀ i, i + 1 < m → ∃ ci ci' : Nat, c[i]? = some ci ∧ c[i + 1]? = some ci' ∧ ci < ci' ∧
      ((ci' - ci : ℕ) : ℤ) = max 1 (roundEven (N * norm2 (cart b (pts (i + 1)) - cart b (pts i)))) ∧
      ∀ j : Nat, j ≤ ci' - ci →
        k[ci + j]? = some ((2 * Real.pi) • (pts i + ((j : ℝ) / (ci' - ci : ℕ)) • (pts (i + 1) - pts i))) ∧
        x[ci + j]? = some (∑ l ∈ Finset.range i, norm2 (cart b (pts (l + 1)) - cart b (pts l)) +
          (j : ℝ) / (ci' - ci : ℕ) * norm2 (cart b (pts (i + 1)) - cart b (pts i))) := by
  obtain ⟨h1, h2, h3, h4⟩ := pathRaw_spec b N 0 pts m hm
  refine ⟨(pathRaw b N 0 pts m).k.map ((2 * Real.pi) • ·), (pathRaw b N 0 pts m).x, (pathRaw b N 0 pts m).corners, ?_,
    ?_, ?_, ?_, ?_, ?_, ?_⟩
  · rw [path, pathCrystal_zero]
    rfl
  · simp [h1]
  · simp [h2, h3]
  · rw [h1, List.getElem?_map, List.getElem?_range (by omega)]
    rfl
  · rw [h1, List.getElem?_map, List.getElem?_range (by omega), List.length_map, h2]
    rfl
  · rw [List.length_map, h2]
    omega
  · intro i hi
    have hs := corner_succ b N 0 pts i
    rw [start_zero] at hs
    have hsub : corner b N 0 pts (i + 1) - corner b N 0 pts i = steps b N pts i := by omega
    refine ⟨corner b N 0 pts i, corner b N 0 pts (i + 1), ?_, ?_, corner_lt b N 0 pts i _ (by omega), ?_, ?_⟩
    · rw [h1, List.getElem?_map, List.getElem?_range (by omega)]
      rfl
    · rw [h1, List.getElem?_map, List.getElem?_range (by omega)]
      rfl
    · rw [hsub]
      have : (1 : ℤ) ≤ max 1 (roundEven (N * gap b pts i)) := le_max_left _ _
      unfold steps
      rw [Int.toNat_of_nonneg (by omega)]
      rfl
    · intro j hj
      rw [hsub] at hj ⊢
      obtain ⟨h5, h6⟩ := h4 i j hi hj
      rw [start_zero] at h5 h6
      rw [List.getElem?_map, h5, h6, onSeg_eq, distSeg_eq]
      exact ⟨rfl, rfl⟩

theorem cart_smul (a : ℝ) (p : Fin d → ℝ) : cart b (a • p) = a • cart b p := by
  ext x
  simp only [cart, Pi.smul_apply, smul_eq_mul, Finset.mul_sum, mul_assoc]

theorem cart_sub (p q : Fin d → ℝ) : cart b (p - q) = cart b p - cart b q := by
  ext x
  simp only [cart, Pi.sub_apply, sub_mul, Finset.sum_sub_distrib]

theorem norm2_smul (a : ℝ) (ha : 0 ≤ a) (v : Fin e → ℝ) : norm2 (a • v) = a * norm2 v := by
  unfold norm2
  simp only [Pi.smul_apply, smul_eq_mul, mul_pow]
  rw [← Finset.mul_sum, Real.sqrt_mul (sq_nonneg a), Real.sqrt_sq ha]

theorem find_segment (m : Nat) (l : Nat) (h : l < corner b N 0 pts m) :
    ∃ i j, i < m ∧ j < steps b N pts i ∧ l = corner b N 0 pts i + j := by
  induction m with
  | zero => simp [corner] at h
  | succ m ih =>
    rcases Nat.lt_or_ge l (corner b N 0 pts m) with h' | h'
    · obtain ⟨i, j, hi, hj, hl⟩ := ih h'
      exact ⟨i, j, by omega, hj, hl⟩
    · rw [corner_succ, start_zero] at h
      exact ⟨m, l - corner b N 0 pts m, by omega, by omega, by omega⟩

/-- C103: the second return value is the length of the path up to the respective point, in units of 2π. -/
theorem C103_length (m : Nat) (hm : 2 ≤ m) (k : List (Fin d → ℝ)) (x : List ℝ) (c : List Nat)
    (h : path b N 0 pts m = some (k, x, c)) : x[0]? = some 0 ∧ ∀ l k0 k1, k[l]? = some k0 → k[l + 1]? = some k1 →
      ∃ x0 x1, x[l]? = some x0 ∧ x[l + 1]? = some x1 ∧ x1 - x0 = norm2 (cart b k1 - cart b k0) / (2 * Real.pi) := by
  obtain ⟨h1, h2, h3, h4⟩ := pathRaw_spec b N 0 pts m hm
  rw [path, pathCrystal_zero, Option.map_some, Option.some.injEq, Prod.mk.injEq, Prod.mk.injEq] at h
  obtain ⟨rfl, rfl, rfl⟩ := h
  constructor
  · have := (h4 0 0 (by omega) (by omega)).2
    rw [start_zero, distSeg_zero] at this
    simpa [corner, total] using this
  · intro l k0 k1 e0 e1
    simp only [List.getElem?_map] at e0 e1
    have hl : l + 1 < (pathRaw b N 0 pts m).k.length := by
      by_contra hn
      rw [List.getElem?_eq_none (by omega)] at e1
      simp at e1
    rw [h2] at hl
    obtain ⟨i, j, hi, hj, rfl⟩ := find_segment b N pts (m - 1) l (by omega)
    obtain ⟨f0, g0⟩ := h4 i j (by omega) (by omega)
    obtain ⟨f1, g1⟩ := h4 i (j + 1) (by omega) (by omega)
    rw [start_zero] at f0 g0 f1 g1
    rw [← Nat.add_assoc] at f1 g1
    rw [f0, Option.map_some, Option.some.injEq] at e0
    rw [f1, Option.map_some, Option.some.injEq] at e1
    refine ⟨_, _, g0, g1, ?_⟩
    have hn := steps_ne b N pts i
    have hp := Real.pi_pos
    have hk : k1 - k0 = (2 * Real.pi / steps b N pts i) • (pts (i + 1) - pts i) := by
      rw [← e0, ← e1, onSeg_eq, onSeg_eq]
      ext c
      simp only [Pi.smul_apply, Pi.add_apply, Pi.sub_apply, smul_eq_mul]
      push_cast
      field_simp
      ring
    rw [← cart_sub, hk, cart_smul, norm2_smul _ (by positivity), cart_sub, distSeg_eq, distSeg_eq]
    change _ = 2 * Real.pi / _ * gap b pts i / _
    push_cast
    field_simp
    ring

/-! ### Input for Quantum ESPRESSO -/

/-- Path generated by Quantum ESPRESSO from `crystal_b` points: the weight is the number of steps to the next point. -/
noncomputable def qePath : List ((Fin d → ℝ) × Nat) → List (Fin d → ℝ)
  | [] => []
  | [p] => [p.1]
  | p :: q :: rest => (List.range p.2).map (fun j : Nat => p.1 + ((j : ℝ) / p.2) • (q.1 - p.1)) ++ qePath (q :: rest)

theorem qePath_spec (l : List ((Fin d → ℝ) × Nat)) (n : Nat) (P : Nat → Fin d → ℝ) (w : Nat → Nat)
    (hl : l = (List.range n).map fun i => (P i, if i + 1 < n then w i else 0)) (hn : 0 < n) :
    (qePath l).length = (∑ i ∈ Finset.range (n - 1), w i) + 1 ∧
    (∀ i j, i + 1 < n → j < w i → (qePath l)[(∑ i' ∈ Finset.range i, w i') + j]? =
      some (P i + ((j : ℝ) / w i) • (P (i + 1) - P i))) ∧
    (qePath l)[∑ i ∈ Finset.range (n - 1), w i]? = some (P (n - 1)) := by
  induction n generalizing l P w with
  | zero => omega
  | succ n ih =>
    rw [List.range_succ_eq_map, List.map_cons, List.map_map] at hl
    rcases Nat.eq_zero_or_pos n with rfl | hn'
    · subst hl
      simp [qePath]
    · obtain ⟨h1, h2, h3⟩ := ih _ (fun i => P (i + 1)) (fun i => w (i + 1)) rfl hn'
      have e : (List.range n).map ((fun i => (P i, if i + 1 < n + 1 then w i else 0)) ∘ Nat.succ) =
          (List.range n).map fun i => (P (i + 1), if i + 1 < n then w (i + 1) else 0) := by
        refine List.map_congr_left fun i hi => ?_
        simp only [Function.comp, Nat.succ_eq_add_one, Nat.add_lt_add_iff_right]
      rw [e] at hl
      have hq : qePath l = (List.range (w 0)).map (fun j : Nat => P 0 + ((j : ℝ) / w 0) • (P 1 - P 0)) ++
          qePath ((List.range n).map fun i => (P (i + 1), if i + 1 < n then w (i + 1) else 0)) := by
        obtain ⟨n', rfl⟩ : ∃ n', n = n' + 1 := ⟨n - 1, by omega⟩
        rw [hl, List.range_succ_eq_map, List.map_cons, qePath]
        simp
      have hsum : ∀ i, ∑ i' ∈ Finset.range (i + 1), w i' = w 0 + ∑ i' ∈ Finset.range i, w (i' + 1) := by
        intro i
        rw [Finset.sum_range_succ', Nat.add_comm]
      have hn1 : n + 1 - 1 = n - 1 + 1 := by omega
      rw [hq]
      refine ⟨?_, ?_, ?_⟩
      · rw [List.length_append, List.length_map, List.length_range, h1, hn1, hsum, Nat.add_assoc]
      · intro i j hi hj
        cases i with
        | zero =>
          rw [List.getElem?_append_left (by simpa using hj)]
          simp [List.getElem?_range hj]
        | succ i =>
          rw [List.getElem?_append_right (by simp [hsum]; omega), List.length_map, List.length_range, hsum,
            show w 0 + ∑ i' ∈ Finset.range i, w (i' + 1) + j - w 0 = ∑ i' ∈ Finset.range i, w (i' + 1) + j by omega]
          exact h2 i j (by omega) hj
      · rw [List.getElem?_append_right (by simp [hn1, hsum]), List.length_map, List.length_range, hn1, hsum,
          Nat.add_sub_cancel_left, h3, show n - 1 + 1 = n by omega]

theorem mapM_some {α β : Type} (l : List α) (f : α → Option β) (g : α → β) (h : ∀ a ∈ l, f a = some (g a)) :
    l.mapM f = some (l.map g) := by
  induction l with
  | nil => rfl
  | cons a l ih =>
    rw [List.mapM_cons, h a (by simp), ih fun a' ha => h a' (by simp [ha])]
    rfl

theorem corner_sum (i : Nat) : corner b N 0 pts i = ∑ l ∈ Finset.range i, steps b N pts l := by
  induction i with
  | zero => rfl
  | succ i ih => rw [corner_succ, start_zero, ih, Finset.sum_range_succ]

/-- C103: Quantum ESPRESSO generates the same path from the corresponding input. -/
theorem C103_qe (m : Nat) (hm : 2 ≤ m) : ∃ k x c q, pathCrystal b N 0 pts m = some (k, x, c) ∧
    qePoints k c = some q ∧ qePath q = k := by
  obtain ⟨h1, h2, h3, h4⟩ := pathRaw_spec b N 0 pts m hm
  have hc : ∀ i, i < m → (pathRaw b N 0 pts m).k[corner b N 0 pts i]? = some (pts i) := by
    intro i hi
    rcases Nat.lt_or_ge (i + 1) m with h | h
    · have := (h4 i 0 h (by omega)).1
      rwa [start_zero, onSeg_zero] at this
    · obtain ⟨i, rfl⟩ : ∃ i', i = i' + 1 := ⟨i - 1, by omega⟩
      have := (h4 i _ hi le_rfl).1
      rwa [onSeg_last, ← corner_succ] at this
  have hq : qePoints (pathRaw b N 0 pts m).k (pathRaw b N 0 pts m).corners =
      some ((List.range m).map fun i => (pts i, if i + 1 < m then steps b N pts i else 0)) := by
    unfold qePoints
    rw [h1, List.length_map, List.length_range]
    refine mapM_some _ _ _ fun i hi => ?_
    rw [List.mem_range] at hi
    simp only [List.getElem?_map, List.getElem?_range hi, Option.map_some, Option.bind_eq_bind, Option.bind_some, hc i hi]
    by_cases h : i + 1 < m
    · rw [List.getElem?_range h, if_pos h]
      simp only [Option.map_some]
      rw [corner_succ, start_zero, Nat.add_sub_cancel_left]
    · rw [List.getElem?_eq_none (by simpa using h), if_neg h]
      rfl
  refine ⟨_, _, _, _, pathCrystal_zero b N pts m, hq, ?_⟩
  obtain ⟨g1, g2, g3⟩ := qePath_spec _ m pts (steps b N pts) rfl (by omega)
  refine List.ext_getElem? fun l => ?_
  rcases Nat.lt_trichotomy l (corner b N 0 pts (m - 1)) with h | h | h
  · obtain ⟨i, j, hi, hj, rfl⟩ := find_segment b N pts (m - 1) l h
    have := (h4 i j (by omega) (by omega)).1
    rw [start_zero, onSeg_eq] at this
    rw [this, corner_sum]
    exact g2 i j (by omega) hj
  · rw [h, hc (m - 1) (by omega), corner_sum]
    exact g3
  · rw [List.getElem?_eq_none (by rw [g1, ← corner_sum]; omega), List.getElem?_eq_none (by omega)]

/-! ### Displaced Gamma point -/

open Classical in
/-- Point of a segment after `t` points have been treated. -/
noncomputable def moved (t i j : Nat) : Fin d → ℝ :=
  if j = 0 ∧ pts i = 0 ∧ i < t then moveG • onSeg b N pts i 1
  else if j = steps b N pts i ∧ pts (i + 1) = 0 ∧ i + 1 < t then moveG • onSeg b N pts i (steps b N pts i - 1)
  else onSeg b N pts i j

theorem moved_old (t i j : Nat) (h0 : ¬(j = 0 ∧ pts i = 0 ∧ i < t))
    (h1 : ¬(j = steps b N pts i ∧ pts (i + 1) = 0 ∧ i + 1 < t)) : moved b N moveG pts t i j = onSeg b N pts i j := by
  rw [moved, if_neg h0, if_neg h1]

theorem moveTo_some (k : List (Fin d → ℝ)) (i j : Nat) (u v : Fin d → ℝ) (hu : k[i]? = some u) (hv : k[j]? = some v) :
    moveTo moveG i j k = some (k.set i (u + moveG • v)) := by
  simp [moveTo, hu, hv]

theorem set_get (k : List (Fin d → ℝ)) (p q : Nat) (v w : Fin d → ℝ) (hw : k[q]? = some w) :
    (k.set p v)[q]? = some (if p = q then v else w) := by
  rw [List.getElem?_set]
  by_cases h : p = q
  · subst h
    have hl : p < k.length := by
      by_contra hn
      rw [List.getElem?_eq_none (by omega)] at hw
      simp at hw
    simp [hl]
  · simp [h, hw]

theorem start_corner (i : Nat) (hG : moveG ≠ 0) (hi : i ≠ 0) (hz : pts i = 0) :
    start b N moveG pts i = corner b N moveG pts i + 1 := by
  rw [start, twice, if_pos ⟨hi, hG, hz⟩]

theorem start_ge (i : Nat) : corner b N moveG pts i ≤ start b N moveG pts i := Nat.le_add_right _ _

theorem move_spec (hG : moveG ≠ 0) (m : Nat) (hm : 2 ≤ m) (hz : ∀ i, i + 1 < m → ¬(pts i = 0 ∧ pts (i + 1) = 0)) (t : Nat)
    (ht : t ≤ m) :
    ∃ k, (List.range t).foldlM (moveStep moveG pts (pathRaw b N moveG pts m).corners) (pathRaw b N moveG pts m).k = some k ∧
      k.length = (pathRaw b N moveG pts m).k.length ∧
      ∀ i j, i + 1 < m → j ≤ steps b N pts i → k[start b N moveG pts i + j]? = some (moved b N moveG pts t i j) := by
  obtain ⟨h1, h2, h3, h4⟩ := pathRaw_spec b N moveG pts m hm
  induction t with
  | zero =>
    refine ⟨_, rfl, rfl, fun i j hi hj => ?_⟩
    rw [(h4 i j hi hj).1, moved_old _ _ _ _ _ _ _ (by omega) (by omega)]
  | succ t ih =>
    obtain ⟨k, hk, hlen, hget⟩ := ih (by omega)
    rw [List.range_succ, List.foldlM_append, hk]
    simp only [Option.bind_eq_bind, Option.bind_some, List.foldlM_cons, List.foldlM_nil]
    unfold moveStep
    by_cases hp : pts t = 0
    swap
    · rw [if_neg hp]
      refine ⟨k, rfl, hlen, fun i j hi hj => ?_⟩
      rw [hget i j hi hj]
      unfold moved
      have c1 : (j = 0 ∧ pts i = 0 ∧ i < t) ↔ (j = 0 ∧ pts i = 0 ∧ i < t + 1) := by
        constructor
        · rintro ⟨a, b, c⟩; exact ⟨a, b, by omega⟩
        · rintro ⟨a, b, c⟩
          refine ⟨a, b, ?_⟩
          rcases Nat.lt_succ_iff_lt_or_eq.1 c with h | rfl
          · exact h
          · exact absurd b hp
      have c2 : (j = steps b N pts i ∧ pts (i + 1) = 0 ∧ i + 1 < t) ↔
          (j = steps b N pts i ∧ pts (i + 1) = 0 ∧ i + 1 < t + 1) := by
        constructor
        · rintro ⟨a, b, c⟩; exact ⟨a, b, by omega⟩
        · rintro ⟨a, b, c⟩
          refine ⟨a, b, ?_⟩
          rcases Nat.lt_succ_iff_lt_or_eq.1 c with h | h
          · exact h
          · rw [h] at b; exact absurd b hp
      rw [if_congr c1 rfl (if_congr c2 rfl rfl)]
    rw [if_pos hp, h1, List.getElem?_map, List.getElem?_range (by omega)]
    simp only [Option.map_some, Option.bind_eq_bind, Option.bind_some, List.length_map, List.length_range]
    have hpos : ∀ i, 1 ≤ steps b N pts i := fun i => steps_pos b N pts i
    -- first point of segment `t`
    have after : ∀ k' : List (Fin d → ℝ), t + 1 < m → k'.length = (pathRaw b N moveG pts m).k.length →
        (∀ i j, i + 1 < m → j ≤ steps b N pts i → k'[start b N moveG pts i + j]? =
          some (if i + 1 = t ∧ j = steps b N pts i then moved b N moveG pts (t + 1) i j else moved b N moveG pts t i j)) →
        ∃ k'', moveTo moveG (start b N moveG pts t) (start b N moveG pts t + 1) k' = some k'' ∧
          k''.length = (pathRaw b N moveG pts m).k.length ∧
          ∀ i j, i + 1 < m → j ≤ steps b N pts i →
            k''[start b N moveG pts i + j]? = some (moved b N moveG pts (t + 1) i j) := by
      intro k' htm hl' hg'
      have hz1 : pts (t + 1) ≠ 0 := fun h => hz t htm ⟨hp, h⟩
      have e0 := hg' t 0 htm (by omega)
      rw [if_neg (by omega), moved_old _ _ _ _ _ _ _ (by omega) (by omega), onSeg_zero, hp, Nat.add_zero] at e0
      have e1 := hg' t 1 htm (hpos t)
      rw [if_neg (by omega), moved_old _ _ _ _ _ _ _ (by omega) (by omega)] at e1
      refine ⟨_, moveTo_some _ _ _ _ _ _ e0 e1, by rw [List.length_set, hl'], fun i j hi hj => ?_⟩
      rw [set_get _ _ _ _ _ (hg' i j hi hj), zero_add]
      congr 1
      by_cases hit : i = t
      · subst hit
        rw [if_neg (show ¬(i + 1 = i ∧ j = steps b N pts i) by omega)]
        by_cases hj0 : j = 0
        · rw [if_pos (show start b N moveG pts i = start b N moveG pts i + j by omega), moved, if_pos ⟨hj0, hp, by omega⟩]
        · rw [if_neg (show ¬start b N moveG pts i = start b N moveG pts i + j by omega), moved_old _ _ _ _ _ _ _ (by tauto) (by tauto), moved_old _ _ _ _ _ _ _ (by tauto) (by tauto)]
      · have hne : start b N moveG pts t ≠ start b N moveG pts i + j := by
          rcases Nat.lt_or_ge i t with h | h
          · have ht0 : t ≠ 0 := by omega
            have a1 := start_corner b N moveG pts t hG ht0 hp
            have a2 := corner_mono b N moveG pts (i + 1) t (by omega)
            rw [corner_succ] at a2
            omega
          · have a2 := corner_lt b N moveG pts t i (by omega)
            have a3 := corner_mono b N moveG pts (t + 1) i (by omega)
            rw [corner_succ] at a3
            have a4 := start_ge b N moveG pts i
            have := hpos t
            omega
        rw [if_neg (by simpa using hne)]
        by_cases hlast : i + 1 = t ∧ j = steps b N pts i
        · rw [if_pos hlast]
        · rw [if_neg hlast]
          unfold moved
          have c1 : (j = 0 ∧ pts i = 0 ∧ i < t) ↔ (j = 0 ∧ pts i = 0 ∧ i < t + 1) := by
            constructor
            · rintro ⟨a, b, c⟩; exact ⟨a, b, by omega⟩
            · rintro ⟨a, b, c⟩; exact ⟨a, b, by omega⟩
          have c2 : (j = steps b N pts i ∧ pts (i + 1) = 0 ∧ i + 1 < t) ↔
              (j = steps b N pts i ∧ pts (i + 1) = 0 ∧ i + 1 < t + 1) := by
            constructor
            · rintro ⟨a, b, c⟩; exact ⟨a, b, by omega⟩
            · rintro ⟨a, b, c⟩
              refine ⟨a, b, ?_⟩
              by_contra hc
              exact hlast ⟨by omega, a⟩
          rw [if_congr c1 rfl (if_congr c2 rfl rfl)]
    by_cases ht0 : t = 0
    · subst ht0
      rw [if_pos rfl]
      obtain ⟨k'', e1, e2, e3⟩ := after k (by omega) hlen fun i j hi hj => by
        rw [if_neg (by omega)]
        exact hget i j hi hj
      refine ⟨k'', ?_, e2, e3⟩
      have : start b N moveG pts 0 = corner b N moveG pts 0 := by simp [start, twice]
      rw [this] at e1
      rw [e1]
      rfl
    · rw [if_neg ht0]
      obtain ⟨u, rfl⟩ : ∃ u, t = u + 1 := ⟨t - 1, by omega⟩
      have hu : u + 1 < m := by omega
      have hz1 : pts u ≠ 0 := fun h => hz u hu ⟨h, hp⟩
      have e0 := hget u (steps b N pts u) hu le_rfl
      rw [moved_old _ _ _ _ _ _ _ (by tauto) (by omega), onSeg_last, hp, ← corner_succ] at e0
      have e1 := hget u (steps b N pts u - 1) hu (by omega)
      have hpu := hpos u
      rw [moved_old _ _ _ _ _ _ _ (by tauto) (by omega),
        show start b N moveG pts u + (steps b N pts u - 1) = corner b N moveG pts (u + 1) - 1 by rw [corner_succ]; omega] at e1
      rw [moveTo_some _ _ _ _ _ _ e0 e1]
      simp only [Option.bind_some, zero_add]
      set k' := k.set (corner b N moveG pts (u + 1)) (moveG • onSeg b N pts u (steps b N pts u - 1)) with hk'
      have hl' : k'.length = (pathRaw b N moveG pts m).k.length := by rw [hk', List.length_set, hlen]
      have hg' : ∀ i j, i + 1 < m → j ≤ steps b N pts i → k'[start b N moveG pts i + j]? =
          some (if i + 1 = u + 1 ∧ j = steps b N pts i then moved b N moveG pts (u + 1 + 1) i j
            else moved b N moveG pts (u + 1) i j) := by
        intro i j hi hj
        rw [hk', set_get _ _ _ _ _ (hget i j hi hj)]
        congr 1
        by_cases hlast : i + 1 = u + 1 ∧ j = steps b N pts i
        · obtain ⟨hiu, hjs⟩ := hlast
          obtain rfl : i = u := by omega
          rw [if_pos (by rw [corner_succ, hjs]), if_pos ⟨hiu, hjs⟩, moved, if_neg (by tauto), if_pos ⟨hjs, hp, by omega⟩]
        · rw [if_neg hlast]
          have hne : ¬corner b N moveG pts (u + 1) = start b N moveG pts i + j := by
            rcases Nat.lt_trichotomy i u with h | h | h
            · have a2 := corner_mono b N moveG pts (i + 1) u (by omega)
              have a3 := corner_lt b N moveG pts u (u + 1) (by omega)
              rw [corner_succ] at a2
              omega
            · subst h
              rw [corner_succ]
              intro hc
              exact hlast ⟨rfl, by omega⟩
            · have a1 := start_corner b N moveG pts (u + 1) hG (by omega) hp
              rcases Nat.lt_or_ge (u + 1) i with h' | h'
              · have a2 := corner_lt b N moveG pts (u + 1) i h'
                have a4 := start_ge b N moveG pts i
                omega
              · obtain rfl : i = u + 1 := by omega
                omega
          rw [if_neg hne]
      by_cases hlast : u + 1 = m - 1
      · rw [if_neg (by simpa using hlast)]
        refine ⟨k', rfl, hl', fun i j hi hj => ?_⟩
        rw [hg' i j hi hj]
        congr 1
        by_cases hc : i + 1 = u + 1 ∧ j = steps b N pts i
        · rw [if_pos hc]
        · rw [if_neg hc]
          unfold moved
          have c1 : (j = 0 ∧ pts i = 0 ∧ i < u + 1) ↔ (j = 0 ∧ pts i = 0 ∧ i < u + 1 + 1) := by
            constructor
            · rintro ⟨a, b, c⟩; exact ⟨a, b, by omega⟩
            · rintro ⟨a, b, c⟩; exact ⟨a, b, by omega⟩
          have c2 : (j = steps b N pts i ∧ pts (i + 1) = 0 ∧ i + 1 < u + 1) ↔
              (j = steps b N pts i ∧ pts (i + 1) = 0 ∧ i + 1 < u + 1 + 1) := by
            constructor
            · rintro ⟨a, b, c⟩; exact ⟨a, b, by omega⟩
            · rintro ⟨a, b, c⟩
              refine ⟨a, b, ?_⟩
              by_contra hcc
              exact hc ⟨by omega, a⟩
          rw [if_congr c1 rfl (if_congr c2 rfl rfl)]
      · rw [if_pos (by simpa using hlast)]
        obtain ⟨k'', e2, e3, e4⟩ := after k' (by omega) hl' hg'
        rw [start_corner b N moveG pts (u + 1) hG (by omega) hp] at e2
        refine ⟨k'', ?_, e3, e4⟩
        rw [show corner b N moveG pts (u + 1) + 2 = corner b N moveG pts (u + 1) + 1 + 1 by omega, e2]
        rfl

/-- C103: with `moveG`, every Gamma point is replaced by its neighbour on the path multiplied by `moveG`; within the path, this
is done for both sides. All other points are unchanged. Each segment occupies `n + 1` entries that begin at the (second)
position of its first point. -/
theorem C103_moveG (hG : moveG ≠ 0) (m : Nat) (hm : 2 ≤ m) (hz : ∀ i, i + 1 < m → ¬(pts i = 0 ∧ pts (i + 1) = 0)) :
    ∃ k x c, path b N moveG pts m = some (k, x, c) ∧ c.length = m ∧ x.length = k.length ∧
      ∀ i, i + 1 < m → ∃ (ci ci' s n : Nat) (P : Nat → Fin d → ℝ), c[i]? = some ci ∧ c[i + 1]? = some ci' ∧
        (s = if i ≠ 0 ∧ pts i = 0 then ci + 1 else ci) ∧ ci' = s + n ∧
        (n : ℤ) = max 1 (roundEven (N * norm2 (cart b (pts (i + 1)) - cart b (pts i)))) ∧
        (∀ j, j ≤ n → k[s + j]? = some (P j)) ∧
        (∀ j, 0 < j → j < n → P j = (2 * Real.pi) • (pts i + ((j : ℝ) / n) • (pts (i + 1) - pts i))) ∧
        (pts i = 0 → P 0 = moveG • ((2 * Real.pi / n) • pts (i + 1))) ∧ (pts i ≠ 0 → P 0 = (2 * Real.pi) • pts i) ∧
        (pts (i + 1) = 0 → P n = moveG • ((2 * Real.pi / n) • pts i)) ∧
        (pts (i + 1) ≠ 0 → P n = (2 * Real.pi) • pts (i + 1)) := by
  obtain ⟨k, hk, hlen, hget⟩ := move_spec b N moveG pts hG m hm hz m le_rfl
  obtain ⟨h1, h2, h3, h4⟩ := pathRaw_spec b N moveG pts m hm
  refine ⟨k.map ((2 * Real.pi) • ·), (pathRaw b N moveG pts m).x, (pathRaw b N moveG pts m).corners, ?_, ?_, ?_, ?_⟩
  · rw [path, pathCrystal]
    simp only [if_pos hG, hk]
    rfl
  · simp [h1]
  · rw [List.length_map, hlen, h2, h3]
  · intro i hi
    have hpos := steps_pos b N pts i
    have hne := steps_ne b N pts i
    refine ⟨corner b N moveG pts i, corner b N moveG pts (i + 1), start b N moveG pts i, steps b N pts i,
      fun j => (2 * Real.pi) • moved b N moveG pts m i j, ?_, ?_, ?_, corner_succ b N moveG pts i, ?_, ?_, ?_, ?_, ?_, ?_, ?_⟩
    · rw [h1, List.getElem?_map, List.getElem?_range (by omega)]
      rfl
    · rw [h1, List.getElem?_map, List.getElem?_range (by omega)]
      rfl
    · unfold start twice
      by_cases h : i ≠ 0 ∧ pts i = 0
      · rw [if_pos h, if_pos ⟨h.1, hG, h.2⟩]
      · rw [if_neg h, if_neg (by tauto), Nat.add_zero]
    · have : (1 : ℤ) ≤ max 1 (roundEven (N * gap b pts i)) := le_max_left _ _
      unfold steps
      rw [Int.toNat_of_nonneg (by omega)]
      rfl
    · intro j hj
      rw [List.getElem?_map, hget i j hi hj]
      rfl
    · intro j h0 hj
      simp only
      rw [moved_old _ _ _ _ _ _ _ (by omega) (by omega), onSeg_eq]
    · intro h
      simp only
      rw [moved, if_pos ⟨rfl, h, by omega⟩, onSeg_eq, h]
      ext c
      simp only [Pi.smul_apply, Pi.add_apply, Pi.sub_apply, smul_eq_mul, Pi.zero_apply, Nat.cast_one]
      ring
    · intro h
      simp only
      rw [moved_old _ _ _ _ _ _ _ (by tauto) (by omega), onSeg_zero]
    · intro h
      simp only
      rw [moved, if_neg (by omega), if_pos ⟨rfl, h, by omega⟩, onSeg_eq, h]
      ext c
      simp only [Pi.smul_apply, Pi.add_apply, Pi.sub_apply, smul_eq_mul, Pi.zero_apply]
      rw [Nat.cast_sub hpos]
      push_cast
      field_simp
      ring
    · intro h
      simp only
      rw [moved_old _ _ _ _ _ _ _ (by omega) (by tauto), onSeg_last]

end

/-- C103 does not hold for the input of Quantum ESPRESSO if a Gamma point within the path is moved: the second one is lost. -/
theorem C103_qe_violated : ∃ (pts : Nat → Fin 1 → ℝ) (k : List (Fin 1 → ℝ)) (x : List ℝ) (c : List Nat)
    (q : List ((Fin 1 → ℝ) × Nat)), pathCrystal (fun _ _ : Fin 1 => (1 : ℝ)) 2 (1 / 10) pts 3 = some (k, x, c) ∧
      qePoints k c = some q ∧ qePath q ≠ k := by
  let pts : Nat → Fin 1 → ℝ := fun i _ => if i = 1 then 0 else 1 / 2
  have p0 : pts 0 = fun _ => 1 / 2 := by simp [pts]
  have p1 : pts 1 = 0 := by ext; simp [pts]
  have p2 : pts 2 = fun _ => 1 / 2 := by simp [pts]
  have n0 : norm2 (cart (fun _ _ : Fin 1 => (1 : ℝ)) (pts 1) - cart (fun _ _ : Fin 1 => (1 : ℝ)) (pts 0)) = 1 / 2 := by
    rw [p0, p1]
    simp [norm2, cart]
  have n1 : norm2 (cart (fun _ _ : Fin 1 => (1 : ℝ)) (pts 2) - cart (fun _ _ : Fin 1 => (1 : ℝ)) (pts 1)) = 1 / 2 := by
    rw [p1, p2]
    simp [norm2, cart]
  have e1 : roundEven (2 * (1 / 2)) = 1 := by
    rw [show (2 : ℝ) * (1 / 2) = ((1 : ℤ) : ℝ) by norm_num, roundEven_int]
  have ne0 : (fun _ : Fin 1 => (1 / 2 : ℝ)) ≠ 0 := by
    intro h
    have := congrFun h 0
    simp at this
  have hraw : pathRaw (fun _ _ : Fin 1 => (1 : ℝ)) 2 (1 / 10) pts 3 = ⟨[fun _ => 1 / 2, 0, 0, fun _ => 1 / 2],
      [0, 1 / 2, 1 / 2, 1], [0, 1, 3], 1⟩ := by
    unfold pathRaw
    rw [show (3 : Nat) - 1 = 2 from rfl, show List.range 2 = [0, 1] from rfl, List.foldl_cons, List.foldl_cons, List.foldl_nil]
    unfold pathStep
    simp only [Nat.zero_add, n0, n1, e1, Nat.reduceAdd]
    norm_num [p0, p1, p2, List.range', Nat.cast_one]
  have hk : pathCrystal (fun _ _ : Fin 1 => (1 : ℝ)) 2 (1 / 10) pts 3 =
      some ([fun _ => 1 / 2, fun _ => 1 / 20, fun _ => 1 / 20, fun _ => 1 / 2], [0, 1 / 2, 1 / 2, 1], [0, 1, 3]) := by
    unfold pathCrystal
    rw [hraw]
    simp only
    rw [if_pos (by norm_num), show List.range 3 = [0, 1, 2] from rfl]
    simp only [List.foldlM_cons, List.foldlM_nil, moveStep, p0, p1, p2, if_neg ne0, moveTo]
    norm_num
    ext
    norm_num
  refine ⟨pts, _, _, _, [(fun _ => 1 / 2, 1), (fun _ => 1 / 20, 2), (fun _ => 1 / 2, 0)], hk, rfl, ?_⟩
  intro h
  have := congrArg (·[2]?) h
  simp [qePath, List.range_succ] at this
  have := congrFun this 0
  norm_num at this

/-- A bent path in two dimensions. -/
example : ∃ k x c, path (fun i j : Fin 2 => if i = j then (1 : ℝ) else 0) 10 0
    (fun i => if i = 0 then ![0, 0] else if i = 1 then ![1 / 2, 0] else ![1 / 2, 1 / 2]) 3 = some (k, x, c) ∧
    c.length = 3 ∧ k[5]? = some ((2 * Real.pi) • ![1 / 2, 0]) := by
  obtain ⟨k, x, c, h1, h2, -, h3, -, -, h4⟩ := C103_path (fun i j : Fin 2 => if i = j then (1 : ℝ) else 0) 10
    (fun i => if i = 0 then ![0, 0] else if i = 1 then ![1 / 2, 0] else ![1 / 2, 1 / 2]) 3 (by norm_num)
  refine ⟨k, x, c, h1, h2, ?_⟩
  obtain ⟨c0, c1, g1, -, g2, g3, g4⟩ := h4 0 (by norm_num)
  obtain rfl : c0 = 0 := by rw [h3] at g1; simpa using g1.symm
  have hn : norm2 (cart (fun i j : Fin 2 => if i = j then (1 : ℝ) else 0) (![1 / 2, 0]) -
      cart (fun i j : Fin 2 => if i = j then (1 : ℝ) else 0) (![0, 0])) = 1 / 2 := by
    simp [norm2, cart, Fin.sum_univ_two]
  simp only [Nat.zero_add, if_true, one_ne_zero, if_false] at g3 g4
  rw [hn, show (10 : ℝ) * (1 / 2) = ((5 : ℤ) : ℝ) by norm_num, roundEven_int] at g3
  obtain rfl : c1 = 5 := by omega
  have := (g4 5 (by norm_num)).1
  rw [this]
  congr 2
  ext i
  fin_cases i <;> norm_num

/-- Points that meet the hypothesis of `C103_moveG`. -/
example : let pts : Nat → Fin 1 → ℝ := fun i _ => if i = 1 then 0 else 1 / 2
    (∀ i, i + 1 < 3 → ¬(pts i = 0 ∧ pts (i + 1) = 0)) ∧ pts 1 = 0 := by
  intro pts
  refine ⟨?_, by ext; simp [pts]⟩
  rintro i hi ⟨h1, h2⟩
  have h1 := congrFun h1 0
  have h2 := congrFun h2 0
  have hi : i < 2 := by omega
  interval_cases i <;> simp [pts] at h1 h2

end Verif.Bravais
