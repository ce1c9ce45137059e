import Verif.Plot.BZ
import Mathlib.Tactic.IntervalCases

/-!
# Model of `BZ` in `elphmod/bravais.py` 1776-1794
-/

namespace Verif.Plot

open Verif.Bravais Verif.Interp

/-- `elphmod/bravais.py` 1776-1794 (`BZ`): corners of the outline. The reciprocal lattice vectors are those of `bzCell`. -/
noncomputable def outline (angle : Angle) (angle0 : ℝ) : List R2 :=
  let a := translations (degrees angle) angle0
  let b := reciprocals2 a.1 a.2
  match angle with
  | .a60 => ([(1, 2), (-1, 1), (-2, -1), (-1, -2), (1, -1), (2, 1), (1, 2)] : List (ℝ × ℝ)).map fun k =>
      (1 / 3 : ℝ) • (k.1 • b.1 + k.2 • b.2)
  | .a90 => ([(1, 1), (-1, 1), (-1, -1), (1, -1), (1, 1)] : List (ℝ × ℝ)).map fun k => k.1 • b.1 + k.2 • b.2
  | .a120 => ([(1, 1), (-1, 2), (-2, 1), (-1, -1), (1, -2), (2, -1), (1, 1)] : List (ℝ × ℝ)).map fun k =>
      (1 / 3 : ℝ) • (k.1 • b.1 + k.2 • b.2)

/-! ### Specification -/

/-- The point is on one of the straight lines between successive corners. -/
def OnLine (l : List R2) (k : R2) : Prop :=
  ∃ i p q, l[i]? = some p ∧ l[i + 1]? = some q ∧ ∃ t : ℝ, 0 ≤ t ∧ t ≤ 1 ∧ k = (1 - t) • p + t • q

/-- The origin is among the closest reciprocal lattice points, but not the only one. -/
def Boundary (b1 b2 k : R2) : Prop := Closest b1 b2 k ∧ ∃ m n : ℤ, (m ≠ 0 ∨ n ≠ 0) ∧
  dot2 k k = dot2 (k - (m : ℝ) • b1 - (n : ℝ) • b2) (k - (m : ℝ) • b1 - (n : ℝ) • b2)

theorem boundary_iff (angle : Angle) (angle0 : ℝ) (k : R2) :
    Boundary (bzCell angle angle0).b1 (bzCell angle angle0).b2 k ↔ (bzCell angle angle0).inside k ∧
      (|dot2 k (bzCell angle angle0).b1| = (bzCell angle angle0).M ∨ |dot2 k (bzCell angle angle0).b2| = (bzCell angle angle0).M ∨
        |dot2 k (bzCell angle angle0).b3| = (bzCell angle angle0).M) := by
  set c := bzCell angle angle0 with hc
  obtain ⟨g1, g2, g3, -⟩ := gram angle angle0
  unfold Boundary
  rw [← C98_cell]
  constructor
  · rintro ⟨h1, m, n, hmn, h2⟩
    refine ⟨h1, ?_⟩
    by_contra hn
    push Not at hn
    obtain ⟨n1, n2, n3⟩ := hn
    have hin := h1
    rw [inside_iff] at hin
    have := C98_unique angle angle0 k (lt_of_le_of_ne hin.1 n1) (lt_of_le_of_ne hin.2.1 n2) (lt_of_le_of_ne hin.2.2 n3) m n (by
      rw [C98_cell] at h1 ⊢
      intro m' n'
      rw [← h2]
      have := h1 (m + m') (n + n')
      push_cast at this
      have e : k - ((m : ℝ) + m') • (bzCell angle angle0).b1 - ((n : ℝ) + n') • (bzCell angle angle0).b2 =
          k - (m : ℝ) • (bzCell angle angle0).b1 - (n : ℝ) • (bzCell angle angle0).b2 -
            (m' : ℝ) • (bzCell angle angle0).b1 - (n' : ℝ) • (bzCell angle angle0).b2 := by
        ext x
        simp only [Pi.sub_apply, Pi.smul_apply, smul_eq_mul]
        ring
      rw [e] at this
      exact this)
    omega
  · rintro ⟨h1, h2⟩
    refine ⟨h1, ?_⟩
    have hs : ∀ m n : ℤ, (m ≠ 0 ∨ n ≠ 0) → 2 * ((m : ℝ) * dot2 k c.b1 + n * dot2 k c.b2) =
        (m : ℝ) ^ 2 * dot2 c.b1 c.b1 + (n : ℝ) ^ 2 * dot2 c.b2 c.b2 + 2 * m * n * dot2 c.b1 c.b2 →
        ∃ m n : ℤ, (m ≠ 0 ∨ n ≠ 0) ∧
          dot2 k k = dot2 (k - (m : ℝ) • c.b1 - (n : ℝ) • c.b2) (k - (m : ℝ) • c.b1 - (n : ℝ) • c.b2) := by
      intro m n hmn h
      refine ⟨m, n, hmn, ?_⟩
      rw [dot2_shift]
      linarith
    simp only [c] at hs
    rw [g1, g2, g3] at hs
    rcases h2 with h2 | h2 | h2
    · rcases (abs_eq_abs.1 (h2.trans (abs_of_nonneg (by cases angle <;> norm_num [c, bzCell] : (0 : ℝ) ≤ c.M)).symm)) with h | h
      · exact hs 1 0 (by norm_num) (by push_cast; simp only [c] at h; linarith)
      · exact hs (-1) 0 (by norm_num) (by push_cast; simp only [c] at h; linarith)
    · rcases (abs_eq_abs.1 (h2.trans (abs_of_nonneg (by cases angle <;> norm_num [c, bzCell] : (0 : ℝ) ≤ c.M)).symm)) with h | h
      · exact hs 0 1 (by norm_num) (by push_cast; simp only [c] at h; linarith)
      · exact hs 0 (-1) (by norm_num) (by push_cast; simp only [c] at h; linarith)
    · rcases (abs_eq_abs.1 (h2.trans (abs_of_nonneg (by cases angle <;> norm_num [c, bzCell] : (0 : ℝ) ≤ c.M)).symm)) with h | h
      · simp only [c] at h
        rw [dot_b3] at h
        cases angle
        · exact hs 1 1 (by norm_num) (by push_cast; norm_num [bzCell] at h ⊢; linarith)
        · exact hs 1 0 (by norm_num) (by push_cast; norm_num [bzCell] at h ⊢; linarith)
        · exact hs 1 (-1) (by norm_num) (by push_cast; norm_num [bzCell] at h ⊢; linarith)
      · simp only [c] at h
        rw [dot_b3] at h
        cases angle
        · exact hs (-1) (-1) (by norm_num) (by push_cast; norm_num [bzCell] at h ⊢; linarith)
        · exact hs (-1) 0 (by norm_num) (by push_cast; norm_num [bzCell] at h ⊢; linarith)
        · exact hs (-1) 1 (by norm_num) (by push_cast; norm_num [bzCell] at h ⊢; linarith)

/-- Crystal coordinates of the corners. -/
noncomputable def hexCorners (angle : Angle) : List (ℝ × ℝ) :=
  match angle with
  | .a60 => [(1 / 3, 2 / 3), (-(1 / 3), 1 / 3), (-(2 / 3), -(1 / 3)), (-(1 / 3), -(2 / 3)), (1 / 3, -(1 / 3)), (2 / 3, 1 / 3),
      (1 / 3, 2 / 3)]
  | .a90 => [(1, 1), (-1, 1), (-1, -1), (1, -1), (1, 1)]
  | .a120 => [(1 / 3, 1 / 3), (-(1 / 3), 2 / 3), (-(2 / 3), 1 / 3), (-(1 / 3), -(1 / 3)), (1 / 3, -(2 / 3)), (2 / 3, -(1 / 3)),
      (1 / 3, 1 / 3)]

theorem outline_eq (angle : Angle) (angle0 : ℝ) : outline angle angle0 =
    (hexCorners angle).map fun k => k.1 • (bzCell angle angle0).b1 + k.2 • (bzCell angle angle0).b2 := by
  obtain ⟨-, -, e3, e4⟩ := bz_b angle angle0
  rw [e3, e4]
  cases angle <;> simp only [outline, hexCorners, List.map_cons, List.map_nil, List.cons.injEq, and_true, true_and]
  · refine ⟨?_, ?_, ?_, ?_, ?_, ?_, ?_⟩ <;>
    · ext x
      simp only [Pi.smul_apply, Pi.add_apply, smul_eq_mul]
      ring
  · refine ⟨?_, ?_, ?_, ?_, ?_, ?_, ?_⟩ <;>
    · ext x
      simp only [Pi.smul_apply, Pi.add_apply, smul_eq_mul]
      ring

theorem onLine_iff (angle : Angle) (angle0 : ℝ) (k : R2) :
    OnLine (outline angle angle0) k ↔ ∃ (i : Nat) (p q : ℝ × ℝ), (hexCorners angle)[i]? = some p ∧
      (hexCorners angle)[i + 1]? = some q ∧ ∃ t : ℝ, 0 ≤ t ∧ t ≤ 1 ∧
        dot2 k (bzCell angle angle0).a1 = (1 - t) * p.1 + t * q.1 ∧
        dot2 k (bzCell angle angle0).a2 = (1 - t) * p.2 + t * q.2 := by
  obtain ⟨-, -, -, d11, d12, d21, d22⟩ := gram angle angle0
  have he := expand angle angle0 k
  rw [outline_eq]
  unfold OnLine
  simp only [List.getElem?_map, Option.map_eq_some_iff]
  constructor
  · rintro ⟨i, _, _, ⟨p, hp, rfl⟩, ⟨q, hq, rfl⟩, t, h0, h1, rfl⟩
    refine ⟨i, p, q, hp, hq, t, h0, h1, ?_, ?_⟩
    · unfold dot2 at *
      simp only [Pi.smul_apply, Pi.add_apply, smul_eq_mul]
      linear_combination ((1 - t) * p.1 + t * q.1) * d11 + ((1 - t) * p.2 + t * q.2) * d12
    · unfold dot2 at *
      simp only [Pi.smul_apply, Pi.add_apply, smul_eq_mul]
      linear_combination ((1 - t) * p.1 + t * q.1) * d21 + ((1 - t) * p.2 + t * q.2) * d22
  · rintro ⟨i, p, q, hp, hq, t, h0, h1, h2, h3⟩
    refine ⟨i, _, _, ⟨p, hp, rfl⟩, ⟨q, hq, rfl⟩, t, h0, h1, ?_⟩
    refine he.trans ?_
    rw [h2, h3]
    ext x
    simp only [Pi.smul_apply, Pi.add_apply, smul_eq_mul]
    ring

/-- Scalar product of the reciprocal vectors. -/
noncomputable def off : Angle → ℝ
  | .a60 => -(2 / 3)
  | .a90 => 0
  | .a120 => 2 / 3

theorem dots (angle : Angle) (angle0 : ℝ) (k : R2) :
    dot2 k (bzCell angle angle0).b1 = dot2 k (bzCell angle angle0).a1 * (2 * (bzCell angle angle0).M) +
      dot2 k (bzCell angle angle0).a2 * off angle ∧
    dot2 k (bzCell angle angle0).b2 = dot2 k (bzCell angle angle0).a1 * off angle +
      dot2 k (bzCell angle angle0).a2 * (2 * (bzCell angle angle0).M) := by
  obtain ⟨g1, g2, g3, -⟩ := gram angle angle0
  have g3 : dot2 (bzCell angle angle0).b1 (bzCell angle angle0).b2 = off angle := by
    rw [g3]
    cases angle <;> rfl
  have he := expand angle angle0 k
  simp only at he
  have hb : ∀ b, dot2 k b = dot2 k (bzCell angle angle0).a1 * dot2 (bzCell angle angle0).b1 b +
      dot2 k (bzCell angle angle0).a2 * dot2 (bzCell angle angle0).b2 b := by
    intro b
    conv_lhs => rw [he]
    simp only [dot2, Pi.smul_apply, Pi.add_apply, smul_eq_mul]
    ring
  rw [hb (bzCell angle angle0).b1, hb (bzCell angle angle0).b2, g1, g2, g3, dot2_comm (bzCell angle angle0).b2, g3]
  exact ⟨rfl, rfl⟩

theorem hex60_mp (u v : ℝ) (h : (∃ (i : Nat) (p q : ℝ × ℝ), (hexCorners .a60)[i]? = some p ∧ (hexCorners .a60)[i + 1]? = some q ∧ ∃ t : ℝ, 0 ≤ t ∧ t ≤ 1 ∧
      u = (1 - t) * p.1 + t * q.1 ∧ v = (1 - t) * p.2 + t * q.2)) :
    ((-(2 / 3) ≤ u * (2 * (2 / 3)) + v * (-(2 / 3)) ∧ u * (2 * (2 / 3)) + v * (-(2 / 3)) ≤ 2 / 3) ∧ (-(2 / 3) ≤ u * (-(2 / 3)) + v * (2 * (2 / 3)) ∧
      u * (-(2 / 3)) + v * (2 * (2 / 3)) ≤ 2 / 3) ∧ -(2 / 3) ≤ u * (2 * (2 / 3)) + v * (-(2 / 3)) + (u * (-(2 / 3)) + v * (2 * (2 / 3))) ∧
      u * (2 * (2 / 3)) + v * (-(2 / 3)) + (u * (-(2 / 3)) + v * (2 * (2 / 3))) ≤ 2 / 3) ∧ (|u * (2 * (2 / 3)) + v * (-(2 / 3))| = 2 / 3 ∨ |u * (-(2 / 3)) + v * (2 * (2 / 3))| = 2 / 3 ∨
      |u * (2 * (2 / 3)) + v * (-(2 / 3)) + (u * (-(2 / 3)) + v * (2 * (2 / 3)))| = 2 / 3) := by
  revert h
  rintro ⟨i, p, q, hp, hq, t, h0, h1, hu, hv⟩
  have hi : i < 6 := by
    by_contra hn
    rw [List.getElem?_eq_none (by simp [hexCorners]; omega)] at hq
    simp at hq
  interval_cases i <;> simp [hexCorners] at hp hq <;> subst hp hq <;> simp only at hu hv <;> subst hu hv
  · refine ⟨⟨⟨by linarith, by linarith⟩, ⟨by linarith, by linarith⟩, by linarith, by linarith⟩, Or.inr (Or.inl ?_)⟩
    rw [abs_of_nonneg (by linarith)]; ring
  · refine ⟨⟨⟨by linarith, by linarith⟩, ⟨by linarith, by linarith⟩, by linarith, by linarith⟩, Or.inl ?_⟩
    rw [abs_of_nonpos (by linarith)]; ring
  · refine ⟨⟨⟨by linarith, by linarith⟩, ⟨by linarith, by linarith⟩, by linarith, by linarith⟩, Or.inr (Or.inr ?_)⟩
    rw [abs_of_nonpos (by linarith)]; ring
  · refine ⟨⟨⟨by linarith, by linarith⟩, ⟨by linarith, by linarith⟩, by linarith, by linarith⟩, Or.inr (Or.inl ?_)⟩
    rw [abs_of_nonpos (by linarith)]; ring
  · refine ⟨⟨⟨by linarith, by linarith⟩, ⟨by linarith, by linarith⟩, by linarith, by linarith⟩, Or.inl ?_⟩
    rw [abs_of_nonneg (by linarith)]; ring
  · refine ⟨⟨⟨by linarith, by linarith⟩, ⟨by linarith, by linarith⟩, by linarith, by linarith⟩, Or.inr (Or.inr ?_)⟩
    rw [abs_of_nonneg (by linarith)]; ring

theorem hex60_mpr (u v : ℝ) (h : ((-(2 / 3) ≤ u * (2 * (2 / 3)) + v * (-(2 / 3)) ∧ u * (2 * (2 / 3)) + v * (-(2 / 3)) ≤ 2 / 3) ∧ (-(2 / 3) ≤ u * (-(2 / 3)) + v * (2 * (2 / 3)) ∧
      u * (-(2 / 3)) + v * (2 * (2 / 3)) ≤ 2 / 3) ∧ -(2 / 3) ≤ u * (2 * (2 / 3)) + v * (-(2 / 3)) + (u * (-(2 / 3)) + v * (2 * (2 / 3))) ∧
      u * (2 * (2 / 3)) + v * (-(2 / 3)) + (u * (-(2 / 3)) + v * (2 * (2 / 3))) ≤ 2 / 3) ∧ (|u * (2 * (2 / 3)) + v * (-(2 / 3))| = 2 / 3 ∨ |u * (-(2 / 3)) + v * (2 * (2 / 3))| = 2 / 3 ∨
      |u * (2 * (2 / 3)) + v * (-(2 / 3)) + (u * (-(2 / 3)) + v * (2 * (2 / 3)))| = 2 / 3)) :
    ∃ (i : Nat) (p q : ℝ × ℝ), (hexCorners .a60)[i]? = some p ∧ (hexCorners .a60)[i + 1]? = some q ∧ ∃ t : ℝ, 0 ≤ t ∧ t ≤ 1 ∧
      u = (1 - t) * p.1 + t * q.1 ∧ v = (1 - t) * p.2 + t * q.2 := by
  revert h
  rintro ⟨⟨⟨a1, a2⟩, ⟨a3, a4⟩, a5, a6⟩, h⟩
  have e23 : (2 / 3 : ℝ) = |2 / 3| := by norm_num
  rcases h with h | h | h <;> rw [e23, abs_eq_abs] at h <;> rcases h with h | h
  · exact ⟨4, (1 / 3, -(1 / 3)), (2 / 3, 1 / 3), by simp [hexCorners], by simp [hexCorners], (v + 1 / 3) * (3 / 2), by linarith,
      by linarith, by simp only; linarith, by simp only; linarith⟩
  · exact ⟨1, (-(1 / 3), 1 / 3), (-(2 / 3), -(1 / 3)), by simp [hexCorners], by simp [hexCorners], (1 / 3 - v) * (3 / 2),
      by linarith, by linarith, by simp only; linarith, by simp only; linarith⟩
  · exact ⟨0, (1 / 3, 2 / 3), (-(1 / 3), 1 / 3), by simp [hexCorners], by simp [hexCorners], (1 / 3 - u) * (3 / 2), by linarith,
      by linarith, by simp only; linarith, by simp only; linarith⟩
  · exact ⟨3, (-(1 / 3), -(2 / 3)), (1 / 3, -(1 / 3)), by simp [hexCorners], by simp [hexCorners], (u + 1 / 3) * (3 / 2),
      by linarith, by linarith, by simp only; linarith, by simp only; linarith⟩
  · exact ⟨5, (2 / 3, 1 / 3), (1 / 3, 2 / 3), by simp [hexCorners], by simp [hexCorners], (2 / 3 - u) * 3, by linarith,
      by linarith, by simp only; linarith, by simp only; linarith⟩
  · exact ⟨2, (-(2 / 3), -(1 / 3)), (-(1 / 3), -(2 / 3)), by simp [hexCorners], by simp [hexCorners], (u + 2 / 3) * 3,
      by linarith, by linarith, by simp only; linarith, by simp only; linarith⟩

theorem hex120_mp (u v : ℝ) (h : (∃ (i : Nat) (p q : ℝ × ℝ), (hexCorners .a120)[i]? = some p ∧ (hexCorners .a120)[i + 1]? = some q ∧ ∃ t : ℝ, 0 ≤ t ∧ t ≤ 1 ∧
      u = (1 - t) * p.1 + t * q.1 ∧ v = (1 - t) * p.2 + t * q.2)) :
    ((-(2 / 3) ≤ u * (2 * (2 / 3)) + v * (2 / 3) ∧ u * (2 * (2 / 3)) + v * (2 / 3) ≤ 2 / 3) ∧ (-(2 / 3) ≤ u * (2 / 3) + v * (2 * (2 / 3)) ∧
      u * (2 / 3) + v * (2 * (2 / 3)) ≤ 2 / 3) ∧ -(2 / 3) ≤ u * (2 * (2 / 3)) + v * (2 / 3) - (u * (2 / 3) + v * (2 * (2 / 3))) ∧
      u * (2 * (2 / 3)) + v * (2 / 3) - (u * (2 / 3) + v * (2 * (2 / 3))) ≤ 2 / 3) ∧ (|u * (2 * (2 / 3)) + v * (2 / 3)| = 2 / 3 ∨ |u * (2 / 3) + v * (2 * (2 / 3))| = 2 / 3 ∨
      |u * (2 * (2 / 3)) + v * (2 / 3) - (u * (2 / 3) + v * (2 * (2 / 3)))| = 2 / 3) := by
  revert h
  rintro ⟨i, p, q, hp, hq, t, h0, h1, hu, hv⟩
  have hi : i < 6 := by
    by_contra hn
    rw [List.getElem?_eq_none (by simp [hexCorners]; omega)] at hq
    simp at hq
  interval_cases i <;> simp [hexCorners] at hp hq <;> subst hp hq <;> simp only at hu hv <;> subst hu hv
  · refine ⟨⟨⟨by linarith, by linarith⟩, ⟨by linarith, by linarith⟩, by linarith, by linarith⟩, Or.inr (Or.inl ?_)⟩
    rw [abs_of_nonneg (by linarith)]; ring
  · refine ⟨⟨⟨by linarith, by linarith⟩, ⟨by linarith, by linarith⟩, by linarith, by linarith⟩, Or.inr (Or.inr ?_)⟩
    rw [abs_of_nonpos (by linarith)]; ring
  · refine ⟨⟨⟨by linarith, by linarith⟩, ⟨by linarith, by linarith⟩, by linarith, by linarith⟩, Or.inl ?_⟩
    rw [abs_of_nonpos (by linarith)]; ring
  · refine ⟨⟨⟨by linarith, by linarith⟩, ⟨by linarith, by linarith⟩, by linarith, by linarith⟩, Or.inr (Or.inl ?_)⟩
    rw [abs_of_nonpos (by linarith)]; ring
  · refine ⟨⟨⟨by linarith, by linarith⟩, ⟨by linarith, by linarith⟩, by linarith, by linarith⟩, Or.inr (Or.inr ?_)⟩
    rw [abs_of_nonneg (by linarith)]; ring
  · refine ⟨⟨⟨by linarith, by linarith⟩, ⟨by linarith, by linarith⟩, by linarith, by linarith⟩, Or.inl ?_⟩
    rw [abs_of_nonneg (by linarith)]; ring

theorem hex120_mpr (u v : ℝ) (h : ((-(2 / 3) ≤ u * (2 * (2 / 3)) + v * (2 / 3) ∧ u * (2 * (2 / 3)) + v * (2 / 3) ≤ 2 / 3) ∧ (-(2 / 3) ≤ u * (2 / 3) + v * (2 * (2 / 3)) ∧
      u * (2 / 3) + v * (2 * (2 / 3)) ≤ 2 / 3) ∧ -(2 / 3) ≤ u * (2 * (2 / 3)) + v * (2 / 3) - (u * (2 / 3) + v * (2 * (2 / 3))) ∧
      u * (2 * (2 / 3)) + v * (2 / 3) - (u * (2 / 3) + v * (2 * (2 / 3))) ≤ 2 / 3) ∧ (|u * (2 * (2 / 3)) + v * (2 / 3)| = 2 / 3 ∨ |u * (2 / 3) + v * (2 * (2 / 3))| = 2 / 3 ∨
      |u * (2 * (2 / 3)) + v * (2 / 3) - (u * (2 / 3) + v * (2 * (2 / 3)))| = 2 / 3)) :
    ∃ (i : Nat) (p q : ℝ × ℝ), (hexCorners .a120)[i]? = some p ∧ (hexCorners .a120)[i + 1]? = some q ∧ ∃ t : ℝ, 0 ≤ t ∧ t ≤ 1 ∧
      u = (1 - t) * p.1 + t * q.1 ∧ v = (1 - t) * p.2 + t * q.2 := by
  revert h
  rintro ⟨⟨⟨a1, a2⟩, ⟨a3, a4⟩, a5, a6⟩, h⟩
  have e23 : (2 / 3 : ℝ) = |2 / 3| := by norm_num
  rcases h with h | h | h <;> rw [e23, abs_eq_abs] at h <;> rcases h with h | h
  · exact ⟨5, (2 / 3, -(1 / 3)), (1 / 3, 1 / 3), by simp [hexCorners], by simp [hexCorners], (2 / 3 - u) * 3, by linarith,
      by linarith, by simp only; linarith, by simp only; linarith⟩
  · exact ⟨2, (-(2 / 3), 1 / 3), (-(1 / 3), -(1 / 3)), by simp [hexCorners], by simp [hexCorners], (u + 2 / 3) * 3,
      by linarith, by linarith, by simp only; linarith, by simp only; linarith⟩
  · exact ⟨0, (1 / 3, 1 / 3), (-(1 / 3), 2 / 3), by simp [hexCorners], by simp [hexCorners], (1 / 3 - u) * (3 / 2), by linarith,
      by linarith, by simp only; linarith, by simp only; linarith⟩
  · exact ⟨3, (-(1 / 3), -(1 / 3)), (1 / 3, -(2 / 3)), by simp [hexCorners], by simp [hexCorners], (u + 1 / 3) * (3 / 2),
      by linarith, by linarith, by simp only; linarith, by simp only; linarith⟩
  · exact ⟨4, (1 / 3, -(2 / 3)), (2 / 3, -(1 / 3)), by simp [hexCorners], by simp [hexCorners], (u - 1 / 3) * 3, by linarith,
      by linarith, by simp only; linarith, by simp only; linarith⟩
  · exact ⟨1, (-(1 / 3), 2 / 3), (-(2 / 3), 1 / 3), by simp [hexCorners], by simp [hexCorners], (-(1 / 3) - u) * 3,
      by linarith, by linarith, by simp only; linarith, by simp only; linarith⟩

/-- C106: for hexagonal lattices in any orientation, the outline is the boundary of the first Brillouin zone. -/
theorem C106_outline_partial (angle : Angle) (ha : angle ≠ .a90) (angle0 : ℝ) (k : R2) :
    OnLine (outline angle angle0) k ↔ Boundary (bzCell angle angle0).b1 (bzCell angle angle0).b2 k := by
  rw [onLine_iff, boundary_iff, inside_iff, dot_b3]
  obtain ⟨h1, h2⟩ := dots angle angle0 k
  rw [h1, h2]
  generalize dot2 k (bzCell angle angle0).a1 = u at *
  generalize dot2 k (bzCell angle angle0).a2 = v at *
  cases angle
  · have hM : (bzCell .a60 angle0).M = 2 / 3 := rfl
    simp only [hM, off] at h1 h2 ⊢
    rw [h1, h2]
    simp only [abs_le]
    exact ⟨hex60_mp u v, hex60_mpr u v⟩
  · exact absurd rfl ha
  · have hM : (bzCell .a120 angle0).M = 2 / 3 := rfl
    simp only [hM, off] at h1 h2 ⊢
    rw [h1, h2]
    simp only [abs_le]
    exact ⟨hex120_mp u v, hex120_mpr u v⟩

/-- C106: the outline is closed. -/
theorem C106_closed (angle : Angle) (angle0 : ℝ) : (outline angle angle0).head? = (outline angle angle0).getLast? := by
  cases angle <;> simp [outline]

/-- C106 does not hold for square lattices in any orientation: the outline is too large by a factor of two; it does not have
any point in common with the Brillouin zone. -/
theorem C106_square_violated (angle0 : ℝ) (k : R2) (h : OnLine (outline .a90 angle0) k) :
    ¬Closest (bzCell .a90 angle0).b1 (bzCell .a90 angle0).b2 k ∧
      Boundary (bzCell .a90 angle0).b1 (bzCell .a90 angle0).b2 ((1 / 2 : ℝ) • k) := by
  have hs : ∀ b : R2, dot2 ((1 / 2 : ℝ) • k) b = dot2 k b / 2 := by
    intro b
    simp only [dot2, Pi.smul_apply, smul_eq_mul]
    ring
  rw [← C98_cell, boundary_iff, inside_iff, inside_iff, hs, hs, hs, dot_b3]
  rw [onLine_iff] at h
  obtain ⟨h1, h2⟩ := dots .a90 angle0 k
  rw [h1, h2]
  simp only [off]
  generalize dot2 k (bzCell .a90 angle0).a1 = u at *
  generalize dot2 k (bzCell .a90 angle0).a2 = v at *
  have hM : (bzCell .a90 angle0).M = 1 / 2 := rfl
  rw [hM]
  obtain ⟨i, p, q, hp, hq, t, h0, h1, hu, hv⟩ := h
  have hi : i < 4 := by
    by_contra hn
    rw [List.getElem?_eq_none (by simp [hexCorners]; omega)] at hq
    simp at hq
  constructor
  · rintro ⟨a, b, -⟩
    rw [abs_le] at a b
    interval_cases i <;> simp [hexCorners] at hp hq <;> subst hp hq <;> simp only at hu hv <;> linarith
  · simp only [abs_le]
    interval_cases i <;> simp [hexCorners] at hp hq <;> subst hp hq <;> simp only at hu hv <;> subst hu hv
    · refine ⟨⟨⟨by linarith, by linarith⟩, ⟨by linarith, by linarith⟩, by linarith, by linarith⟩, Or.inr (Or.inl ?_)⟩
      rw [abs_of_nonneg (by linarith)]; ring
    · refine ⟨⟨⟨by linarith, by linarith⟩, ⟨by linarith, by linarith⟩, by linarith, by linarith⟩, Or.inl ?_⟩
      rw [abs_of_nonpos (by linarith)]; ring
    · refine ⟨⟨⟨by linarith, by linarith⟩, ⟨by linarith, by linarith⟩, by linarith, by linarith⟩, Or.inr (Or.inl ?_)⟩
      rw [abs_of_nonpos (by linarith)]; ring
    · refine ⟨⟨⟨by linarith, by linarith⟩, ⟨by linarith, by linarith⟩, by linarith, by linarith⟩, Or.inl ?_⟩
      rw [abs_of_nonneg (by linarith)]; ring

/-- A point in the middle of an edge. -/
example : Boundary (bzCell .a120 30).b1 (bzCell .a120 30).b2 ((1 / 2 : ℝ) • (bzCell .a120 30).b2) := by
  rw [← C106_outline_partial .a120 (by simp), onLine_iff]
  obtain ⟨-, -, -, -, d12, -, d22⟩ := gram .a120 30
  refine ⟨0, (1 / 3, 1 / 3), (-(1 / 3), 2 / 3), by simp [hexCorners], by simp [hexCorners], 1 / 2, by norm_num, by norm_num, ?_, ?_⟩
  · rw [dot2_comm] at d12
    have : dot2 ((1 / 2 : ℝ) • (bzCell .a120 30).b2) (bzCell .a120 30).a1 =
        1 / 2 * dot2 (bzCell .a120 30).b2 (bzCell .a120 30).a1 := by
      simp only [dot2, Pi.smul_apply, smul_eq_mul]; ring
    rw [this, d12]
    norm_num
  · rw [dot2_comm] at d22
    have : dot2 ((1 / 2 : ℝ) • (bzCell .a120 30).b2) (bzCell .a120 30).a2 =
        1 / 2 * dot2 (bzCell .a120 30).b2 (bzCell .a120 30).a2 := by
      simp only [dot2, Pi.smul_apply, smul_eq_mul]; ring
    rw [this, d22]
    norm_num

end Verif.Plot
