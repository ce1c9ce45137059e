import Verif.Voronoi.Model
import Verif.MPI.Props
import Mathlib.Tactic.Ring
import Mathlib.Tactic.Linarith
import Mathlib.Tactic.LinearCombination
import Mathlib.Tactic.FieldSimp
import Mathlib.Algebra.BigOperators.Group.List.Lemmas
import Mathlib.Algebra.Order.Field.Basic

/-! Helper lemmas for `Verif.Voronoi`. -/

namespace Verif.Voronoi

theorem listMin_spec {K : Type} [CommRing K] [LinearOrder K] (a : K) (l : List K) :
    (listMin a l = a ∨ listMin a l ∈ l) ∧ listMin a l ≤ a ∧ ∀ b ∈ l, listMin a l ≤ b := by
  induction l generalizing a with
  | nil => simp [listMin]
  | cons b l ih =>
    obtain ⟨h1, h2, h3⟩ := ih (min a b)
    simp only [listMin, List.mem_cons]
    refine ⟨?_, h2.trans (min_le_left _ _), ?_⟩
    · rcases h1 with h1 | h1
      · rcases min_choice a b with h | h
        · left; rw [h1, h]
        · right; left; rw [h1, h]
      · right; right; exact h1
    · rintro c (rfl | hc)
      · exact h2.trans (min_le_right _ _)
      · exact h3 c hc

/-- Membership in the result: nearest (within the tolerance) of the considered images. -/
theorem mem_toVoronoi {K : Type} [CommRing K] [LinearOrder K] [IsStrictOrderedRing K] (k : P)
    (nk : Int) (angle : Angle) (dk1 dk2 eps : K) (p : P) :
    p ∈ toVoronoi k nk angle dk1 dk2 eps ↔ p ∈ voronoiImages k nk ∧
      ∀ q ∈ voronoiImages k nk, imageDist angle dk1 dk2 p ≤ imageDist angle dk1 dk2 q + eps := by
  have hne : voronoiImages k nk ≠ [] := by simp [voronoiImages]
  unfold toVoronoi
  simp only [List.mem_toFinset, List.mem_filter, decide_eq_true_eq]
  obtain ⟨a, l, hl⟩ := List.exists_cons_of_ne_nil hne
  rw [hl]
  simp only [List.map_cons, List.headD_cons, List.tail_cons]
  obtain ⟨h1, h2, h3⟩ := listMin_spec (imageDist angle dk1 dk2 a) (l.map (imageDist angle dk1 dk2))
  set mn := listMin (imageDist angle dk1 dk2 a) (l.map (imageDist angle dk1 dk2))
  have hle : ∀ q ∈ a :: l, mn ≤ imageDist angle dk1 dk2 q := by
    intro q hq
    rcases List.mem_cons.1 hq with rfl | hq
    · exact h2
    · exact h3 _ (List.mem_map_of_mem hq)
  have hatt : ∃ q ∈ a :: l, mn = imageDist angle dk1 dk2 q := by
    rcases h1 with h1 | h1
    · exact ⟨a, List.mem_cons_self, h1⟩
    · obtain ⟨q, hq, he⟩ := List.mem_map.1 h1
      exact ⟨q, List.mem_cons_of_mem _ hq, he.symm⟩
  refine and_congr_right fun hp => ?_
  rw [abs_of_nonneg (sub_nonneg.2 (hle p hp))]
  constructor
  · intro h q hq
    have := hle q hq
    linarith
  · intro h
    obtain ⟨q, hq, he⟩ := hatt
    have := h q hq
    rw [he]; linarith

theorem toVoronoi_nonempty {K : Type} [CommRing K] [LinearOrder K] [IsStrictOrderedRing K] (k : P)
    (nk : Int) (angle : Angle) (dk1 dk2 eps : K) (he : 0 ≤ eps) :
    (toVoronoi k nk angle dk1 dk2 eps).Nonempty := by
  classical
  have hne : (voronoiImages k nk).toFinset.Nonempty :=
    ⟨(k.1 % nk, k.2 % nk), by simp [voronoiImages]⟩
  obtain ⟨p, hp, hmin⟩ := Finset.exists_min_image _ (imageDist angle dk1 dk2) hne
  refine ⟨p, (mem_toVoronoi _ _ _ _ _ _ _).2 ⟨List.mem_toFinset.1 hp, fun q hq => ?_⟩⟩
  have := hmin q (List.mem_toFinset.2 hq)
  linarith

/-- All considered points are equivalent to the given one. -/
theorem voronoiImages_equiv (k : P) (nk : Int) (p : P) (hp : p ∈ voronoiImages k nk) :
    nk ∣ p.1 - k.1 ∧ nk ∣ p.2 - k.2 := by
  have h1 : nk ∣ k.1 % nk - k.1 := by
    rw [Int.emod_def]; exact ⟨-(k.1 / nk), by ring⟩
  have h2 : nk ∣ k.2 % nk - k.2 := by
    rw [Int.emod_def]; exact ⟨-(k.2 / nk), by ring⟩
  have key : ∀ (x y : Int), nk ∣ x - y → nk ∣ x - nk - y ∧ nk ∣ x + nk - y := by
    rintro x y ⟨c, hc⟩
    exact ⟨⟨c - 1, by linear_combination hc⟩, ⟨c + 1, by linear_combination hc⟩⟩
  have hm : p ∈ [((k.1 % nk, k.2 % nk) : P), (k.1 % nk - nk, k.2 % nk), (k.1 % nk, k.2 % nk - nk),
      (k.1 % nk - nk, k.2 % nk - nk), (k.1 % nk + nk, k.2 % nk), (k.1 % nk, k.2 % nk + nk),
      (k.1 % nk + nk, k.2 % nk + nk)] := by
    unfold voronoiImages at hp
    simp only at hp
    split at hp
    · exact hp
    · simp at hp ⊢
      tauto
  simp only [List.mem_cons, List.not_mem_nil, or_false] at hm
  rcases hm with rfl | rfl | rfl | rfl | rfl | rfl | rfl <;>
    simp [h1, h2, (key _ _ h1).1, (key _ _ h2).1, (key _ _ h1).2, (key _ _ h2).2]

/-- Distance (in cells) from the four corners. -/
def cornerDist (a : Int) : Nat := (if 0 ≤ a then a else -1 - a).toNat

/-- Descent: an equivalent point outside of the four corners has a strictly closer neighbour that
is not farther from the corners. -/
theorem descent {K : Type} [CommRing K] [LinearOrder K] [IsStrictOrderedRing K] (angle : Angle)
    (n x y : Int) (d1 d2 : K) (hn : 0 < n) (hx : 0 ≤ x ∧ x < n) (hy : 0 ≤ y ∧ y < n)
    (hd1 : 3 * |d1| < n) (hd2 : 3 * |d2| < n) (a b : Int)
    (hab : ¬ ((a = 0 ∨ a = -1) ∧ (b = 0 ∨ b = -1))) :
    ∃ a' b' : Int, cornerDist a' + cornerDist b' < cornerDist a + cornerDist b ∧
      sqDist angle (((x + a' * n : Int) : K) - d1) (((y + b' * n : Int) : K) - d2) <
      sqDist angle (((x + a * n : Int) : K) - d1) (((y + b * n : Int) : K) - d2) := by
  obtain ⟨d1a, d1b⟩ : -(n : K) < 3 * d1 ∧ 3 * d1 < n := by
    constructor <;> [nlinarith [neg_abs_le d1]; nlinarith [le_abs_self d1]]
  obtain ⟨d2a, d2b⟩ : -(n : K) < 3 * d2 ∧ 3 * d2 < n := by
    constructor <;> [nlinarith [neg_abs_le d2]; nlinarith [le_abs_self d2]]
  obtain ⟨N, hN⟩ : ∃ N : K, N = n := ⟨_, rfl⟩
  have hnK : 0 < N := by rw [hN]; exact_mod_cast hn
  set X : K := ((x + a * n : Int) : K) - d1 with hX
  set Y : K := ((y + b * n : Int) : K) - d2 with hY
  have move : ∀ s t : Int, cornerDist (a + s) + cornerDist (b + t) < cornerDist a + cornerDist b →
      sqDist angle (X + s * N) (Y + t * N) < sqDist angle X Y →
      ∃ a' b' : Int, cornerDist a' + cornerDist b' < cornerDist a + cornerDist b ∧
        sqDist angle (((x + a' * n : Int) : K) - d1) (((y + b' * n : Int) : K) - d2) <
        sqDist angle X Y := by
    intro s t hc h
    refine ⟨a + s, b + t, hc, ?_⟩
    have e1 : ((x + (a + s) * n : Int) : K) - d1 = X + s * N := by rw [hX, hN]; push_cast; ring
    have e2 : ((y + (b + t) * n : Int) : K) - d2 = Y + t * N := by rw [hY, hN]; push_cast; ring
    rw [e1, e2]; exact h
  have bound : ∀ (z c : Int) (d : K), 0 ≤ z ∧ z < n →
      (1 ≤ c → N - d ≤ ((z + c * n : Int) : K) - d) ∧
      (c ≤ -2 → ((z + c * n : Int) : K) - d < -N - d) ∧
      (0 ≤ c → 0 - d ≤ ((z + c * n : Int) : K) - d) ∧
      (c ≤ -1 → ((z + c * n : Int) : K) - d < - d) := by
    intro z c d hz
    refine ⟨fun h => ?_, fun h => ?_, fun h => ?_, fun h => ?_⟩
    · have : n ≤ z + c * n := by nlinarith
      have : ((n : Int) : K) ≤ ((z + c * n : Int) : K) := by exact_mod_cast this
      rw [hN]; linarith
    · have : z + c * n < -n := by nlinarith
      have : ((z + c * n : Int) : K) < ((-n : Int) : K) := by exact_mod_cast this
      rw [hN]; push_cast at this ⊢; linarith
    · have : 0 ≤ z + c * n := by nlinarith
      have : ((0 : Int) : K) ≤ ((z + c * n : Int) : K) := by exact_mod_cast this
      push_cast at this ⊢; linarith
    · have : z + c * n < 0 := by nlinarith
      have : ((z + c * n : Int) : K) < ((0 : Int) : K) := by exact_mod_cast this
      push_cast at this ⊢; linarith
  obtain ⟨hXpos, hXneg, hX0, hX1⟩ := bound x a d1 hx
  obtain ⟨hYpos, hYneg, hY0, hY1⟩ := bound y b d2 hy
  rw [← hX] at hXpos hXneg hX0 hX1
  rw [← hY] at hYpos hYneg hY0 hY1
  rw [← hN] at d1a d1b d2a d2b
  have hcase : 1 ≤ a ∨ a ≤ -2 ∨ 1 ≤ b ∨ b ≤ -2 := by omega
  have sgnb : ∀ c : Int, 0 ≤ c ∨ c ≤ -1 := fun c => by omega
  clear_value X Y
  clear bound hd1 hd2
  cases angle
  · -- 60
    have D : ∀ s t : Int, 0 < -(s * (2 * X + Y) + t * (2 * Y + X) + N * (s * s + t * t + s * t)) →
        sqDist .a60 (X + s * N) (Y + t * N) < sqDist .a60 X Y := by
      intro s t h
      have := mul_pos hnK h
      simp only [sqDist, Angle.sgn, Int.cast_one]
      linarith
    rcases hcase with h | h | h | h
    · have := hXpos h
      rcases lt_or_ge (2 * d1 - N) Y with h' | h'
      · exact move (-1) 0 (by simp only [cornerDist]; split_ifs <;> omega)
          (D _ _ (by push_cast; linarith))
      · have hb : b ≤ -1 := by
          rcases sgnb b with hb | hb
          · have := hY0 hb; exfalso; linarith
          · exact hb
        exact move (-1) 1 (by simp only [cornerDist]; split_ifs <;> omega)
          (D _ _ (by push_cast; linarith))
    · have := hXneg h
      rcases lt_or_ge Y (N + 2 * d1) with h' | h'
      · exact move 1 0 (by simp only [cornerDist]; split_ifs <;> omega)
          (D _ _ (by push_cast; linarith))
      · have hb : 0 ≤ b := by
          rcases sgnb b with hb | hb
          · exact hb
          · have := hY1 hb; exfalso; linarith
        exact move 1 (-1) (by simp only [cornerDist]; split_ifs <;> omega)
          (D _ _ (by push_cast; linarith))
    · have := hYpos h
      rcases lt_or_ge (2 * d2 - N) X with h' | h'
      · exact move 0 (-1) (by simp only [cornerDist]; split_ifs <;> omega)
          (D _ _ (by push_cast; linarith))
      · have hb : a ≤ -1 := by
          rcases sgnb a with hb | hb
          · have := hX0 hb; exfalso; linarith
          · exact hb
        exact move 1 (-1) (by simp only [cornerDist]; split_ifs <;> omega)
          (D _ _ (by push_cast; linarith))
    · have := hYneg h
      rcases lt_or_ge X (N + 2 * d2) with h' | h'
      · exact move 0 1 (by simp only [cornerDist]; split_ifs <;> omega)
          (D _ _ (by push_cast; linarith))
      · have hb : 0 ≤ a := by
          rcases sgnb a with hb | hb
          · exact hb
          · have := hX1 hb; exfalso; linarith
        exact move (-1) 1 (by simp only [cornerDist]; split_ifs <;> omega)
          (D _ _ (by push_cast; linarith))
  · -- 90
    have D : ∀ s t : Int, 0 < -(s * (2 * X) + t * (2 * Y) + N * (s * s + t * t)) →
        sqDist .a90 (X + s * N) (Y + t * N) < sqDist .a90 X Y := by
      intro s t h
      have := mul_pos hnK h
      simp only [sqDist, Angle.sgn, Int.cast_zero]
      linarith
    rcases hcase with h | h | h | h
    · have := hXpos h
      exact move (-1) 0 (by simp only [cornerDist]; split_ifs <;> omega)
        (D _ _ (by push_cast; linarith))
    · have := hXneg h
      exact move 1 0 (by simp only [cornerDist]; split_ifs <;> omega)
        (D _ _ (by push_cast; linarith))
    · have := hYpos h
      exact move 0 (-1) (by simp only [cornerDist]; split_ifs <;> omega)
        (D _ _ (by push_cast; linarith))
    · have := hYneg h
      exact move 0 1 (by simp only [cornerDist]; split_ifs <;> omega)
        (D _ _ (by push_cast; linarith))
  · -- 120
    have D : ∀ s t : Int, 0 < -(s * (2 * X - Y) + t * (2 * Y - X) + N * (s * s + t * t - s * t)) →
        sqDist .a120 (X + s * N) (Y + t * N) < sqDist .a120 X Y := by
      intro s t h
      have := mul_pos hnK h
      simp only [sqDist, Angle.sgn, Int.cast_neg, Int.cast_one]
      linarith
    rcases hcase with h | h | h | h
    · have := hXpos h
      rcases lt_or_ge Y (N - 2 * d1) with h' | h'
      · exact move (-1) 0 (by simp only [cornerDist]; split_ifs <;> omega)
          (D _ _ (by push_cast; linarith))
      · have hb : 0 ≤ b := by
          rcases sgnb b with hb | hb
          · exact hb
          · have := hY1 hb; exfalso; linarith
        exact move (-1) (-1) (by simp only [cornerDist]; split_ifs <;> omega)
          (D _ _ (by push_cast; linarith))
    · have := hXneg h
      rcases lt_or_ge (-N - 2 * d1) Y with h' | h'
      · exact move 1 0 (by simp only [cornerDist]; split_ifs <;> omega)
          (D _ _ (by push_cast; linarith))
      · have hb : b ≤ -1 := by
          rcases sgnb b with hb | hb
          · have := hY0 hb; exfalso; linarith
          · exact hb
        exact move 1 1 (by simp only [cornerDist]; split_ifs <;> omega)
          (D _ _ (by push_cast; linarith))
    · have := hYpos h
      rcases lt_or_ge X (N - 2 * d2) with h' | h'
      · exact move 0 (-1) (by simp only [cornerDist]; split_ifs <;> omega)
          (D _ _ (by push_cast; linarith))
      · have hb : 0 ≤ a := by
          rcases sgnb a with hb | hb
          · exact hb
          · have := hX1 hb; exfalso; linarith
        exact move (-1) (-1) (by simp only [cornerDist]; split_ifs <;> omega)
          (D _ _ (by push_cast; linarith))
    · have := hYneg h
      rcases lt_or_ge (-N - 2 * d2) X with h' | h'
      · exact move 0 1 (by simp only [cornerDist]; split_ifs <;> omega)
          (D _ _ (by push_cast; linarith))
      · have hb : a ≤ -1 := by
          rcases sgnb a with hb | hb
          · have := hX0 hb; exfalso; linarith
          · exact hb
        exact move 1 1 (by simp only [cornerDist]; split_ifs <;> omega)
          (D _ _ (by push_cast; linarith))

/-- Every equivalent point is one of the four corners or strictly farther than one of them. -/
theorem corner_or_lt {K : Type} [CommRing K] [LinearOrder K] [IsStrictOrderedRing K] (angle : Angle)
    (n x y : Int) (d1 d2 : K) (hn : 0 < n) (hx : 0 ≤ x ∧ x < n) (hy : 0 ≤ y ∧ y < n)
    (hd1 : 3 * |d1| < n) (hd2 : 3 * |d2| < n) (a b : Int) :
    ((a = 0 ∨ a = -1) ∧ (b = 0 ∨ b = -1)) ∨
    ∃ a' b' : Int, ((a' = 0 ∨ a' = -1) ∧ (b' = 0 ∨ b' = -1)) ∧
      sqDist angle (((x + a' * n : Int) : K) - d1) (((y + b' * n : Int) : K) - d2) <
      sqDist angle (((x + a * n : Int) : K) - d1) (((y + b * n : Int) : K) - d2) := by
  generalize hd : cornerDist a + cornerDist b = d
  induction d using Nat.strong_induction_on generalizing a b with
  | _ d ih =>
    by_cases hab : (a = 0 ∨ a = -1) ∧ (b = 0 ∨ b = -1)
    · exact Or.inl hab
    · right
      obtain ⟨a', b', hc, hlt⟩ := descent angle n x y d1 d2 hn hx hy hd1 hd2 a b hab
      rcases ih _ (hd ▸ hc) a' b' rfl with h | ⟨a'', b'', h, hlt'⟩
      · exact ⟨a', b', h, hlt⟩
      · exact ⟨a'', b'', h, hlt'.trans hlt⟩

theorem mem_voronoiImages_corner (k : P) (nk a b : Int)
    (h : (a = 0 ∨ a = -1) ∧ (b = 0 ∨ b = -1)) :
    ((k.1 % nk + a * nk, k.2 % nk + b * nk) : P) ∈ voronoiImages k nk := by
  obtain ⟨ha, hb⟩ := h
  unfold voronoiImages
  simp only [List.mem_append]
  left
  rcases ha with rfl | rfl <;> rcases hb with rfl | rfl <;> simp [sub_eq_add_neg]

/-- For small shifts, the result (without tolerance) consists of exactly the nearest equivalent
points. -/
theorem mem_toVoronoi_iff {K : Type} [CommRing K] [LinearOrder K] [IsStrictOrderedRing K]
    (k : P) (nk : Int) (hn : 0 < nk) (angle : Angle) (dk1 dk2 : K) (hd1 : 3 * |dk1| < nk)
    (hd2 : 3 * |dk2| < nk) (p : P) :
    p ∈ toVoronoi k nk angle dk1 dk2 0 ↔ (nk ∣ p.1 - k.1 ∧ nk ∣ p.2 - k.2) ∧
      ∀ q : P, nk ∣ q.1 - k.1 → nk ∣ q.2 - k.2 →
        imageDist angle dk1 dk2 p ≤ imageDist angle dk1 dk2 q := by
  have hx : 0 ≤ k.1 % nk ∧ k.1 % nk < nk := ⟨Int.emod_nonneg _ hn.ne', Int.emod_lt_of_pos _ hn⟩
  have hy : 0 ≤ k.2 % nk ∧ k.2 % nk < nk := ⟨Int.emod_nonneg _ hn.ne', Int.emod_lt_of_pos _ hn⟩
  have coords : ∀ q : P, nk ∣ q.1 - k.1 → nk ∣ q.2 - k.2 →
      ∃ a b : Int, q = (k.1 % nk + a * nk, k.2 % nk + b * nk) := by
    rintro ⟨q1, q2⟩ ⟨u, hu⟩ ⟨v, hv⟩
    simp only at hu hv
    refine ⟨u + k.1 / nk, v + k.2 / nk, ?_⟩
    rw [Int.emod_def, Int.emod_def, Prod.mk.injEq]
    exact ⟨by linear_combination hu, by linear_combination hv⟩
  rw [mem_toVoronoi]
  simp only [add_zero]
  constructor
  · rintro ⟨hp, hmin⟩
    refine ⟨voronoiImages_equiv _ _ _ hp, fun q h1 h2 => ?_⟩
    obtain ⟨a, b, rfl⟩ := coords q h1 h2
    rcases corner_or_lt angle nk _ _ dk1 dk2 hn hx hy hd1 hd2 a b with h | ⟨a', b', h, hlt⟩
    · exact hmin _ (mem_voronoiImages_corner k nk a b h)
    · exact (hmin _ (mem_voronoiImages_corner k nk a' b' h)).trans hlt.le
  · rintro ⟨⟨h1, h2⟩, hmin⟩
    refine ⟨?_, fun q hq => hmin q (voronoiImages_equiv _ _ _ hq).1 (voronoiImages_equiv _ _ _ hq).2⟩
    obtain ⟨a, b, rfl⟩ := coords p h1 h2
    rcases corner_or_lt angle nk _ _ dk1 dk2 hn hx hy hd1 hd2 a b with h | ⟨a', b', h, hlt⟩
    · exact mem_voronoiImages_corner k nk a b h
    · have hm := mem_voronoiImages_corner k nk a' b' h
      have := hmin _ (voronoiImages_equiv _ _ _ hm).1 (voronoiImages_equiv _ _ _ hm).2
      exact absurd hlt (not_lt.2 this)

/-! ### `wigner` -/

theorem minOf_spec {K : Type} [AddCommGroup K] [LinearOrder K] (len : V3 → K) (l : List V3)
    (h : l ≠ []) : ∃ x, minOf len l = some x ∧ (∃ R ∈ l, len R = x) ∧ ∀ R ∈ l, x ≤ len R := by
  induction l with
  | nil => exact absurd rfl h
  | cons R l ih =>
    by_cases hl : l = []
    · subst hl
      exact ⟨len R, rfl, ⟨R, by simp⟩, by simp⟩
    · obtain ⟨x, h1, ⟨S, hS, hSx⟩, h3⟩ := ih hl
      refine ⟨min (len R) x, by simp only [minOf, h1], ?_, ?_⟩
      · rcases min_choice (len R) x with hm | hm
        · exact ⟨R, List.mem_cons_self, hm.symm⟩
        · exact ⟨S, List.mem_cons_of_mem _ hS, by rw [hm, hSx]⟩
      · intro T hT
        rcases List.mem_cons.1 hT with rfl | hT
        · exact min_le_left _ _
        · exact (min_le_right _ _).trans (h3 T hT)

theorem selected_subset {K : Type} [AddCommGroup K] [LinearOrder K] (eps : K) (len : V3 → K)
    (cs : List V3) (R : V3) (h : R ∈ selected eps len cs) : R ∈ cs := by
  unfold selected at h
  split at h
  · cases h
  · exact List.mem_of_mem_filter h

theorem selected_nodup {K : Type} [AddCommGroup K] [LinearOrder K] (eps : K) (len : V3 → K)
    (cs : List V3) (h : cs.Nodup) : (selected eps len cs).Nodup := by
  unfold selected
  split
  · exact List.nodup_nil
  · exact h.filter _

theorem selected_ne_nil {K : Type} [AddCommGroup K] [LinearOrder K] [IsOrderedAddMonoid K] (eps : K) (heps : 0 < eps)
    (len : V3 → K) (cs : List V3) (h : cs ≠ []) : selected eps len cs ≠ [] := by
  obtain ⟨x, h1, ⟨R, hR, hRx⟩, _⟩ := minOf_spec len cs h
  apply List.ne_nil_of_mem (a := R)
  simp only [selected, h1, List.mem_filter, decide_eq_true_eq]
  exact ⟨hR, by rw [hRx]; simpa using heps⟩

theorem mem_irange (lo hi n : Int) : n ∈ irange lo hi ↔ lo ≤ n ∧ n < hi := by
  simp only [irange, List.mem_map, List.mem_range]
  constructor
  · rintro ⟨m, hm, rfl⟩; omega
  · rintro ⟨h1, h2⟩; exact ⟨(n - lo).toNat, by omega, by omega⟩

theorem nodup_irange (lo hi : Int) : (irange lo hi).Nodup :=
  List.Nodup.map (fun a b h => by simpa using h) List.nodup_range

/-- Product lists without repetitions. -/
theorem nodup_product {α β γ δ : Type} (as : List α) (bs : List β) (cs : List γ) (f : α → β → γ → δ)
    (ha : as.Nodup) (hb : bs.Nodup) (hc : cs.Nodup)
    (hf : ∀ a b c a' b' c', f a b c = f a' b' c' → a = a' ∧ b = b' ∧ c = c') :
    (as.flatMap fun a => bs.flatMap fun b => cs.map fun c => f a b c).Nodup := by
  rw [List.nodup_flatMap]
  refine ⟨?_, ?_⟩
  · intro a _
    rw [List.nodup_flatMap]
    refine ⟨?_, ?_⟩
    · intro b _
      exact List.Nodup.map (fun u v h => (hf _ _ _ _ _ _ h).2.2) hc
    · refine hb.imp ?_
      intro b b' hbb
      simp only [Function.onFun, List.disjoint_left, List.mem_map, not_exists, not_and]
      rintro u ⟨z, _, rfl⟩ w _ he
      exact hbb (hf _ _ _ _ _ _ he).2.1.symm
  · refine ha.imp ?_
    intro b c hbc
    simp only [Function.onFun, List.disjoint_left, List.mem_flatMap, List.mem_map, not_exists,
      not_and]
    rintro u ⟨y, _, z, _, rfl⟩ w _ t _ he
    exact hbc (hf _ _ _ _ _ _ he).1.symm

theorem nodup_copies (sgn : Int) (hs : sgn = 1 ∨ sgn = -1) (nr : V3) (h1 : 0 < nr.1)
    (h2 : 0 < nr.2.1) (h3 : 0 < nr.2.2) (nsc : Nat) (m : V3) : (copies sgn nr nsc m).Nodup := by
  apply nodup_product _ _ _ _ (nodup_irange _ _) (nodup_irange _ _) (nodup_irange _ _)
  intro a b c a' b' c' h
  have key : ∀ n x y z : Int, 0 < n → sgn * (x * n + z) = sgn * (y * n + z) → x = y := by
    intro n x y z hn he
    have : x * n + z = y * n + z := by rcases hs with rfl | rfl <;> omega
    exact mul_right_cancel₀ hn.ne' (by linarith)
  simp only [Prod.mk.injEq] at h
  exact ⟨key _ _ _ _ h1 h.1, key _ _ _ _ h2 h.2.1, key _ _ _ _ h3 h.2.2⟩

/-- Class of a lattice vector. -/
def classOf (sgn : Int) (nr : V3) (R : V3) : V3 :=
  ((sgn * R.1) % nr.1, (sgn * R.2.1) % nr.2.1, (sgn * R.2.2) % nr.2.2)

theorem classOf_copies (sgn : Int) (hs : sgn = 1 ∨ sgn = -1) (n1 n2 n3 : Nat) (nsc : Nat) (m R : V3)
    (hm : m ∈ mesh3 n1 n2 n3) (hR : R ∈ copies sgn ((n1 : Int), (n2 : Int), (n3 : Int)) nsc m) :
    classOf sgn ((n1 : Int), (n2 : Int), (n3 : Int)) R = m := by
  simp only [mesh3, List.mem_flatMap, List.mem_map, List.mem_range] at hm
  obtain ⟨m1, h1, m2, h2, m3, h3, rfl⟩ := hm
  simp only [copies, List.mem_flatMap, List.mem_map] at hR
  obtain ⟨M1, _, M2, _, M3, _, rfl⟩ := hR
  have key : ∀ (M : Int) (n m : Nat), m < n → (sgn * (sgn * (M * n + m))) % (n : Int) = m := by
    intro M n m h
    have : sgn * (sgn * (M * n + m)) = m + n * M := by
      rcases hs with rfl | rfl <;> ring
    rw [this, Int.add_mul_emod_self_left]
    exact Int.emod_eq_of_lt (by omega) (by omega)
  simp only [classOf, Prod.mk.injEq]
  exact ⟨key _ _ _ h1, key _ _ _ h2, key _ _ _ h3⟩

theorem copies_ne_nil (sgn : Int) (nr : V3) (nsc : Nat) (h : 0 < nsc) (m : V3) :
    copies sgn nr nsc m ≠ [] := by
  have h0 : (0 : Int) ∈ irange (-nsc) nsc := (mem_irange _ _ _).2 ⟨by omega, by omega⟩
  apply List.ne_nil_of_mem (a := (sgn * (0 * nr.1 + m.1), sgn * (0 * nr.2.1 + m.2.1),
    sgn * (0 * nr.2.2 + m.2.2)))
  simp only [copies, List.mem_flatMap, List.mem_map]
  exact ⟨0, h0, 0, h0, 0, h0, rfl⟩

section
variable {ι κ : Type} [DecidableEq ι] [DecidableEq κ]

/-- Effect of a sequence of assignments. -/
theorem foldl_set (ops : List (V3 × ι × κ × Nat)) (d : Dict ι κ) (hd : d.keys.Nodup) :
    (ops.foldl Dict.set d).keys.Nodup ∧
    (∀ R, R ∈ (ops.foldl Dict.set d).keys ↔ R ∈ d.keys ∨ ∃ o ∈ ops, o.1 = R) ∧
    (∀ R i j, (∀ o ∈ ops, ¬ (o.1 = R ∧ o.2.1 = i ∧ o.2.2.1 = j)) →
      (ops.foldl Dict.set d).deg R i j = d.deg R i j) ∧
    (∀ R i j v, (∃ o ∈ ops, o.1 = R ∧ o.2.1 = i ∧ o.2.2.1 = j) →
      (∀ o ∈ ops, o.1 = R → o.2.1 = i → o.2.2.1 = j → o.2.2.2 = v) →
      (ops.foldl Dict.set d).deg R i j = v) := by
  induction ops generalizing d with
  | nil => simp [hd]
  | cons o ops ih =>
    have hd' : (d.set o).keys.Nodup := by
      simp only [Dict.set]
      split
      · exact hd
      · next h =>
        rw [List.nodup_append]
        refine ⟨hd, List.nodup_singleton _, ?_⟩
        intro a ha b hb
        rw [List.mem_singleton] at hb
        subst hb
        intro e
        exact h (e ▸ ha)
    have hk : ∀ R, R ∈ (d.set o).keys ↔ R ∈ d.keys ∨ o.1 = R := by
      intro R
      simp only [Dict.set]
      split
      · next h =>
        constructor
        · exact Or.inl
        · rintro (h' | rfl)
          · exact h'
          · exact h
      · simp only [List.mem_append, List.mem_singleton]
        constructor
        · rintro (h' | rfl)
          · exact Or.inl h'
          · exact Or.inr rfl
        · rintro (h' | rfl)
          · exact Or.inl h'
          · exact Or.inr rfl
    obtain ⟨i1, i2, i3, i4⟩ := ih (d.set o) hd'
    simp only [List.foldl_cons]
    refine ⟨i1, ?_, ?_, ?_⟩
    · intro R
      rw [i2, hk]
      simp only [List.mem_cons, exists_eq_or_imp]
      tauto
    · intro R i j h
      rw [i3 R i j (fun o' ho' => h o' (List.mem_cons_of_mem _ ho'))]
      simp only [Dict.set]
      rw [if_neg]
      rintro ⟨rfl, rfl, rfl⟩
      exact h o List.mem_cons_self ⟨rfl, rfl, rfl⟩
    · intro R i j v hex hall
      have hall' : ∀ o' ∈ ops, o'.1 = R → o'.2.1 = i → o'.2.2.1 = j → o'.2.2.2 = v :=
        fun o' ho' => hall o' (List.mem_cons_of_mem _ ho')
      by_cases hex' : ∃ o' ∈ ops, o'.1 = R ∧ o'.2.1 = i ∧ o'.2.2.1 = j
      · exact i4 R i j v hex' hall'
      · rw [i3 R i j (fun o' ho' h => hex' ⟨o', ho', h⟩)]
        obtain ⟨o', ho', h1, h2, h3⟩ := hex
        rcases List.mem_cons.1 ho' with rfl | ho'
        · subst h1 h2 h3
          simp only [Dict.set, and_self, if_true]
          exact hall _ List.mem_cons_self rfl rfl rfl
        · exact absurd ⟨o', ho', h1, h2, h3⟩ hex'

end

end Verif.Voronoi
