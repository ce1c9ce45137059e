import Verif.DOS.Isoline
import Verif.Interp.Props
import Verif.Voronoi.Props
import Mathlib.Data.List.Sort
import Mathlib.Tactic.FinCases
import Mathlib.Tactic.IntervalCases

/-!
# Triangles of `isoline` in `elphmod/dos.py` and the isoline in the whole Brillouin zone

Coordinates are in units of the mesh spacing, as in the code before the final division by the number of points per dimension.
-/

namespace Verif.Isoline

open scoped Classical
open Verif.Voronoi (toVoronoi meshPoints euclidSq sqDist)
open Verif.Interp (interp60 noStk ext)

/-- Points in the plane, coordinates with respect to lattice vectors at an angle of 60 degrees. -/
abbrev R2 := ℝ × ℝ

/-! ### Models -/

/-- `elphmod/dos.py` 294-295: `(dk1[n], dk2[n])`. -/
def dir : Fin 6 → Int × Int := ![(1, 0), (0, 1), (-1, 1), (-1, 0), (0, -1), (1, -1)]

/-- `elphmod/dos.py` 312-324: corners beyond the border are moved. -/
noncomputable def shift (N : Int) (c : Int × Int) : R2 :=
  if c.1 - c.2 > N then ((c.1 : ℝ) - 1 / 2, (c.2 : ℝ) + 1 / 2)
  else if c.1 - c.2 < -N then ((c.1 : ℝ) + 1 / 2, (c.2 : ℝ) - 1 / 2)
  else if 2 * c.1 + c.2 > N then ((c.1 : ℝ) - 1 / 2, (c.2 : ℝ))
  else if 2 * c.1 + c.2 < -N then ((c.1 : ℝ) + 1 / 2, (c.2 : ℝ))
  else if c.1 + 2 * c.2 > N then ((c.1 : ℝ), (c.2 : ℝ) - 1 / 2)
  else if c.1 + 2 * c.2 < -N then ((c.1 : ℝ), (c.2 : ℝ) + 1 / 2)
  else ((c.1 : ℝ), (c.2 : ℝ))

/-- `elphmod/dos.py` 305-324: corners of the triangles around a point. The loop index `n` runs from -1 to 4, where -1 stands for the last element. -/
noncomputable def around (N : Int) (K : Int × Int) : List (List R2) :=
  [5, 0, 1, 2, 3, 4].map fun n : Fin 6 => [K, (K.1 + (dir n).1, K.2 + (dir n).2), (K.1 + (dir (n + 1)).1, K.2 + (dir (n + 1)).2)].map (shift N)

/-- `elphmod/dos.py` 299-324: triangles around all mesh points with a single image. -/
noncomputable def corners (N : Nat) : List (List R2) :=
  (meshPoints N).flatMap fun k =>
    let images := toVoronoi k N .a60 (0 : Int) 0 0
    if images.card = 1 then images.toList.flatMap (around N) else []

/-- `elphmod/dos.py` 326-327: order of the keys `(fun(*x), x)`. -/
def keyLe (f : R2 → ℝ) (x y : R2) : Prop := f x < f y ∨ f x = f y ∧ (x.1 < y.1 ∨ x.1 = y.1 ∧ x.2 ≤ y.2)

/-- `elphmod/dos.py` 326-327, 332: sorted corners and their energies. -/
noncomputable def toTri (f : R2 → ℝ) (l : List R2) : List (Tri R2) :=
  match l.insertionSort (keyLe f) with
  | [i, j, k] => [⟨i, j, k, f i, f j, f k⟩]
  | _ => []

/-- `elphmod/dos.py` 297: `linear_interpolation(energies)` with the default angle of 60 degrees. -/
noncomputable def energy (N : Nat) (e : Int → Int → ℝ) (p : R2) : ℝ := interp60 noStk e N N p.1 p.2

/-- `elphmod/dos.py` 287-332: all triangles before distribution over processes, as elements of a set. -/
noncomputable def triangles (N : Nat) (e : Int → Int → ℝ) : List (Tri R2) := (corners N).flatMap (toTri (energy N e))

/-! ### Specification -/

/-- Brillouin zone: points which are not closer to any lattice vector than to the origin. -/
def zone (N : Nat) : Set R2 := {p | ∀ a b : Int, euclidSq .a60 p.1 p.2 0 0 ≤ euclidSq .a60 p.1 p.2 (N * a) (N * b)}

/-- Points of a triangle with given corners. -/
def hull (a b c : R2) : Set R2 := {p | ∃ u v w : ℝ, 0 ≤ u ∧ 0 ≤ v ∧ 0 ≤ w ∧ u + v + w = 1 ∧ p = u • a + v • b + w • c}

/-- Points drawn for given segments. -/
def drawn (S : Finset (R2 × R2)) : Set R2 := {p | ∃ s ∈ S, p ∈ between s.1 s.2}

/-! ### The zone -/

theorem combine (A B c : ℝ) (m n : Int) (hm : 0 ≤ m) (hn : 0 ≤ n) (hA : A ≤ c) (hB : B ≤ c) (hc : 0 ≤ c) :
    (m : ℝ) * A + n * B ≤ c * ((m : ℝ) ^ 2 + m * n + n ^ 2) := by
  have h1 : (m : ℝ) ≤ (m : ℝ) ^ 2 := by
    have : m ≤ m ^ 2 := by nlinarith
    exact_mod_cast this
  have h2 : (n : ℝ) ≤ (n : ℝ) ^ 2 := by
    have : n ≤ n ^ 2 := by nlinarith
    exact_mod_cast this
  have h3 : (0 : ℝ) ≤ m := by exact_mod_cast hm
  have h4 : (0 : ℝ) ≤ n := by exact_mod_cast hn
  have h5 : (0 : ℝ) ≤ (m : ℝ) * n := mul_nonneg h3 h4
  calc (m : ℝ) * A + n * B ≤ m * c + n * c := by gcongr
    _ = c * (m + n) := by ring
    _ ≤ c * ((m : ℝ) ^ 2 + m * n + n ^ 2) := mul_le_mul_of_nonneg_left (by linarith) hc

theorem quad (X Y c : ℝ) (hX : |X| ≤ c) (hY : |Y| ≤ c) (hXY : |X - Y| ≤ c) (a b : Int) :
    (a : ℝ) * X + b * Y ≤ c * ((a : ℝ) ^ 2 + a * b + b ^ 2) := by
  have hc : 0 ≤ c := le_trans (abs_nonneg _) hX
  rw [abs_le] at hX hY hXY
  rcases le_total 0 a with ha | ha <;> rcases le_total 0 b with hb | hb
  · exact combine X Y c a b ha hb hX.2 hY.2 hc
  · rcases le_total 0 (a + b) with h | h
    · have := combine X (X - Y) c (a + b) (-b) h (by omega) hX.2 hXY.2 hc
      push_cast at this
      linarith
    · have := combine (X - Y) (-Y) c a (-(a + b)) ha (by omega) hXY.2 (by linarith) hc
      push_cast at this
      linarith
  · rcases le_total 0 (a + b) with h | h
    · have := combine Y (-(X - Y)) c (a + b) (-a) h (by omega) hY.2 (by linarith) hc
      push_cast at this
      linarith
    · have := combine (-(X - Y)) (-X) c b (-(a + b)) hb (by omega) (by linarith) (by linarith) hc
      push_cast at this
      linarith
  · have := combine (-X) (-Y) c (-a) (-b) (by omega) (by omega) (by linarith) (by linarith) hc
    push_cast at this
    linarith

/-- The six borders of the zone. -/
def InZone (N : ℝ) (p : R2) : Prop := |2 * p.1 + p.2| ≤ N ∧ |p.1 + 2 * p.2| ≤ N ∧ |p.1 - p.2| ≤ N

theorem dist_diff (p : R2) (N : ℝ) (a b : ℝ) : euclidSq .a60 p.1 p.2 (N * a) (N * b) - euclidSq .a60 p.1 p.2 0 0 =
    N * (N * (a ^ 2 + a * b + b ^ 2) - (a * (2 * p.1 + p.2) + b * (p.1 + 2 * p.2))) := by
  rw [← Voronoi.sqDist_eq_euclid, ← Voronoi.sqDist_eq_euclid]
  simp only [sqDist, Voronoi.Angle.sgn]
  push_cast
  ring

theorem mem_zone (N : Nat) (hN : 0 < N) (p : R2) : p ∈ zone N ↔ InZone N p := by
  have hN' : (0 : ℝ) < N := by exact_mod_cast hN
  constructor
  · intro h
    have key : ∀ a b : Int, (a : ℝ) * (2 * p.1 + p.2) + b * (p.1 + 2 * p.2) ≤ N * ((a : ℝ) ^ 2 + a * b + b ^ 2) := by
      intro a b
      have h1 := h a b
      have h2 := dist_diff p N a b
      have h3 : 0 ≤ (N : ℝ) * (N * ((a : ℝ) ^ 2 + a * b + b ^ 2) - (a * (2 * p.1 + p.2) + b * (p.1 + 2 * p.2))) := by
        rw [← h2]
        linarith
      have := nonneg_of_mul_nonneg_right h3 hN'
      linarith
    have k1 := key 1 0
    have k2 := key (-1) 0
    have k3 := key 0 1
    have k4 := key 0 (-1)
    have k5 := key 1 (-1)
    have k6 := key (-1) 1
    push_cast at k1 k2 k3 k4 k5 k6
    refine ⟨abs_le.2 ⟨by linarith, by linarith⟩, abs_le.2 ⟨by linarith, by linarith⟩, abs_le.2 ⟨by linarith, by linarith⟩⟩
  · rintro ⟨h1, h2, h3⟩ a b
    have h4 := quad _ _ _ h1 h2 (by
      rw [show 2 * p.1 + p.2 - (p.1 + 2 * p.2) = p.1 - p.2 by ring]
      exact h3) a b
    have h5 := dist_diff p N a b
    have h6 : 0 ≤ (N : ℝ) * (N * ((a : ℝ) ^ 2 + a * b + b ^ 2) - (a * (2 * p.1 + p.2) + b * (p.1 + 2 * p.2))) :=
      mul_nonneg hN'.le (by linarith)
    linarith

/-- Mesh points within the zone. -/
def Inner (N : Int) (K : Int × Int) : Prop := |2 * K.1 + K.2| < N ∧ |K.1 + 2 * K.2| < N ∧ |K.1 - K.2| < N

theorem sqDist_int (K : Int × Int) (N a b : Int) : Voronoi.imageDist .a60 (0 : Int) 0 (K.1 - N * a, K.2 - N * b) - Voronoi.imageDist .a60 (0 : Int) 0 K =
    N * (N * (a ^ 2 + a * b + b ^ 2) - (a * (2 * K.1 + K.2) + b * (K.1 + 2 * K.2))) := by
  simp only [Voronoi.imageDist, sqDist, Voronoi.Angle.sgn]
  push_cast
  ring

theorem quad_int (X Y c : Int) (hX : |X| ≤ c) (hY : |Y| ≤ c) (hXY : |X - Y| ≤ c) (a b : Int) : a * X + b * Y ≤ c * (a ^ 2 + a * b + b ^ 2) := by
  have := quad (X : ℝ) Y c (by exact_mod_cast hX) (by exact_mod_cast hY) (by exact_mod_cast hXY) a b
  exact_mod_cast this

theorem voronoi_single (N : Int) (hN : 0 < N) (k K : Int × Int) :
    toVoronoi k N .a60 (0 : Int) 0 0 = {K} ↔ (N ∣ K.1 - k.1 ∧ N ∣ K.2 - k.2) ∧ Inner N K := by
  have hmem := fun p : Int × Int => Voronoi.mem_toVoronoi_iff k N hN .a60 (0 : Int) 0 (by simpa using hN) (by simpa using hN) p
  constructor
  · intro h
    have hK : K ∈ toVoronoi k N .a60 (0 : Int) 0 0 := by rw [h]; simp
    obtain ⟨he, hmin⟩ := (hmem K).1 hK
    refine ⟨he, ?_⟩
    have key : ∀ a b : Int, ¬(a = 0 ∧ b = 0) → a * (2 * K.1 + K.2) + b * (K.1 + 2 * K.2) < N * (a ^ 2 + a * b + b ^ 2) := by
      intro a b hab
      by_contra hc
      push Not at hc
      have hq : (K.1 - N * a, K.2 - N * b) ∈ toVoronoi k N .a60 (0 : Int) 0 0 := by
        rw [hmem]
        refine ⟨⟨?_, ?_⟩, fun q h1 h2 => ?_⟩
        · rw [show K.1 - N * a - k.1 = (K.1 - k.1) - N * a by ring]
          exact dvd_sub he.1 (dvd_mul_right _ _)
        · rw [show K.2 - N * b - k.2 = (K.2 - k.2) - N * b by ring]
          exact dvd_sub he.2 (dvd_mul_right _ _)
        · have h3 := hmin q h1 h2
          have h4 := sqDist_int K N a b
          have h5 : N * (N * (a ^ 2 + a * b + b ^ 2) - (a * (2 * K.1 + K.2) + b * (K.1 + 2 * K.2))) ≤ 0 :=
            mul_nonpos_of_nonneg_of_nonpos hN.le (by linarith)
          linarith
      rw [h, Finset.mem_singleton] at hq
      have e1 : N * a = 0 := by
        have := congrArg Prod.fst hq
        simp at this
        rcases this with h | h <;> simp [h]
      have e2 : N * b = 0 := by
        have := congrArg Prod.snd hq
        simp at this
        rcases this with h | h <;> simp [h]
      exact hab ⟨(mul_eq_zero.1 e1).resolve_left hN.ne', (mul_eq_zero.1 e2).resolve_left hN.ne'⟩
    have k1 := key 1 0 (by simp)
    have k2 := key (-1) 0 (by simp)
    have k3 := key 0 1 (by simp)
    have k4 := key 0 (-1) (by simp)
    have k5 := key 1 (-1) (by simp)
    have k6 := key (-1) 1 (by simp)
    norm_num at k1 k2 k3 k4 k5 k6
    refine ⟨abs_lt.2 ⟨by linarith, by linarith⟩, abs_lt.2 ⟨by linarith, by linarith⟩, abs_lt.2 ⟨by linarith, by linarith⟩⟩
  · rintro ⟨he, h1, h2, h3⟩
    have key : ∀ a b : Int, ¬(a = 0 ∧ b = 0) → a * (2 * K.1 + K.2) + b * (K.1 + 2 * K.2) < N * (a ^ 2 + a * b + b ^ 2) := by
      intro a b hab
      have h4 := quad_int (2 * K.1 + K.2) (K.1 + 2 * K.2) (N - 1) (by omega) (by omega) (by
        rw [show 2 * K.1 + K.2 - (K.1 + 2 * K.2) = K.1 - K.2 by ring]
        omega) a b
      have h5 : 0 < a ^ 2 + a * b + b ^ 2 := by
        by_contra hc
        push Not at hc
        have h6 : (2 * a + b) ^ 2 + 3 * b ^ 2 ≤ 0 := by nlinarith
        have h7 : b = 0 := by nlinarith [sq_nonneg (2 * a + b), sq_nonneg b]
        subst h7
        have h8 : a = 0 := by nlinarith [sq_nonneg a]
        exact hab ⟨h8, rfl⟩
      nlinarith
    ext q
    rw [hmem, Finset.mem_singleton]
    constructor
    · rintro ⟨⟨⟨x, hx⟩, ⟨y, hy⟩⟩, hmin⟩
      by_contra hne
      obtain ⟨⟨x', hx'⟩, ⟨y', hy'⟩⟩ := he
      have hq : q = (K.1 - N * (x' - x), K.2 - N * (y' - y)) := by
        refine Prod.ext ?_ ?_
        · show q.1 = K.1 - N * (x' - x)
          linear_combination hx - hx'
        · show q.2 = K.2 - N * (y' - y)
          linear_combination hy - hy'
      have h4 := key (x' - x) (y' - y) (by
        rintro ⟨e1, e2⟩
        rw [e1, e2] at hq
        simp at hq
        exact hne hq)
      have h5 := hmin K ⟨x', hx'⟩ ⟨y', hy'⟩
      have h6 := sqDist_int K N (x' - x) (y' - y)
      rw [← hq] at h6
      have h7 : 0 < N * (N * ((x' - x) ^ 2 + (x' - x) * (y' - y) + (y' - y) ^ 2) - ((x' - x) * (2 * K.1 + K.2) + (y' - y) * (K.1 + 2 * K.2))) :=
        mul_pos hN (by linarith)
      linarith
    · rintro rfl
      refine ⟨he, fun p h4 h5 => ?_⟩
      obtain ⟨⟨x', hx'⟩, ⟨y', hy'⟩⟩ := he
      obtain ⟨x, hx⟩ := h4
      obtain ⟨y, hy⟩ := h5
      have hq : p = (q.1 - N * (x' - x), q.2 - N * (y' - y)) := by
        refine Prod.ext ?_ ?_
        · show p.1 = q.1 - N * (x' - x)
          linear_combination hx - hx'
        · show p.2 = q.2 - N * (y' - y)
          linear_combination hy - hy'
      by_cases h0 : x' - x = 0 ∧ y' - y = 0
      · rw [hq, h0.1, h0.2]
        simp
      · have h4 := key _ _ h0
        have h6 := sqDist_int q N (x' - x) (y' - y)
        rw [← hq] at h6
        have h7 : 0 < N * (N * ((x' - x) ^ 2 + (x' - x) * (y' - y) + (y' - y) ^ 2) - ((x' - x) * (2 * q.1 + q.2) + (y' - y) * (q.1 + 2 * q.2))) :=
          mul_pos hN (by linarith)
        linarith

theorem mem_corners (N : Nat) (hN : 0 < N) (l : List R2) : l ∈ corners N ↔ ∃ K, Inner N K ∧ l ∈ around N K := by
  have hN' : (0 : Int) < N := by exact_mod_cast hN
  unfold corners
  simp only [List.mem_flatMap]
  constructor
  · rintro ⟨k, _, h⟩
    split at h
    · next hc =>
      obtain ⟨K, hK⟩ := Finset.card_eq_one.1 hc
      rw [hK] at h
      simp only [Finset.toList_singleton, List.flatMap_cons, List.flatMap_nil, List.append_nil] at h
      exact ⟨K, ((voronoi_single N hN' k K).1 hK).2, h⟩
    · simp at h
  · rintro ⟨K, hK, h⟩
    refine ⟨(K.1 % N, K.2 % N), ?_, ?_⟩
    · unfold meshPoints
      simp only [List.mem_flatMap, List.mem_map, List.mem_range]
      have a1 := Int.emod_nonneg K.1 hN'.ne'
      have a2 := Int.emod_lt_of_pos K.1 hN'
      have b1 := Int.emod_nonneg K.2 hN'.ne'
      have b2 := Int.emod_lt_of_pos K.2 hN'
      exact ⟨(K.1 % N).toNat, by omega, (K.2 % N).toNat, by omega, by
        rw [Int.toNat_of_nonneg a1, Int.toNat_of_nonneg b1]⟩
    · have hv := (voronoi_single N hN' (K.1 % N, K.2 % N) K).2 ⟨⟨by
        show (N : Int) ∣ K.1 - K.1 % N
        exact Int.dvd_self_sub_emod, by
        show (N : Int) ∣ K.2 - K.2 % N
        exact Int.dvd_self_sub_emod⟩, hK⟩
      rw [hv]
      simpa using h

/-! ### Corners -/

/-- Six linear forms, one for each border. -/
def form (n : Fin 6) (K : Int × Int) : Int :=
  ![2 * K.1 + K.2, K.1 + 2 * K.2, K.2 - K.1, -(2 * K.1 + K.2), -(K.1 + 2 * K.2), K.1 - K.2] n

/-- The same for points. -/
def formR (n : Fin 6) (p : R2) : ℝ :=
  ![2 * p.1 + p.2, p.1 + 2 * p.2, p.2 - p.1, -(2 * p.1 + p.2), -(p.1 + 2 * p.2), p.1 - p.2] n

theorem forall6 {P : Fin 6 → Prop} : (∀ n, P n) ↔ P 0 ∧ P 1 ∧ P 2 ∧ P 3 ∧ P 4 ∧ P 5 := by
  constructor
  · intro h
    exact ⟨h 0, h 1, h 2, h 3, h 4, h 5⟩
  · rintro ⟨h0, h1, h2, h3, h4, h5⟩ n
    fin_cases n <;> assumption

theorem inner_iff (N : Int) (K : Int × Int) : Inner N K ↔ ∀ n, form n K ≤ N - 1 := by
  rw [forall6]
  unfold Inner
  rw [abs_lt, abs_lt, abs_lt]
  simp only [form, Matrix.cons_val]
  omega

theorem inZone_iff (N : ℝ) (p : R2) : InZone N p ↔ ∀ n, formR n p ≤ N := by
  rw [forall6]
  unfold InZone
  rw [abs_le, abs_le, abs_le]
  simp only [formR, Matrix.cons_val]
  constructor
  · rintro ⟨⟨_, _⟩, ⟨_, _⟩, ⟨_, _⟩⟩
    refine ⟨?_, ?_, ?_, ?_, ?_, ?_⟩ <;> linarith
  · rintro ⟨_, _, _, _, _, _⟩
    refine ⟨⟨?_, ?_⟩, ⟨?_, ?_⟩, ⟨?_, ?_⟩⟩ <;> linarith

/-- Mesh point as point in the plane. -/
def pt (K : Int × Int) : R2 := ((K.1 : ℝ), (K.2 : ℝ))

/-- Point in the triangle between two directions. -/
def wedge (K : Int × Int) (n : Fin 6) (s t : ℝ) : R2 :=
  ((K.1 : ℝ) + s * ((dir n).1 : ℝ) + t * ((dir (n + 1)).1 : ℝ), (K.2 : ℝ) + s * ((dir n).2 : ℝ) + t * ((dir (n + 1)).2 : ℝ))

/-- Part of the distance to the neighboring point within the zone. -/
noncomputable def lam (N : Int) (K : Int × Int) (n : Fin 6) : ℝ := if form n K = N - 1 then 1 / 2 else 1

/-- Corner of triangles around a point. -/
noncomputable def tip (N : Int) (K : Int × Int) (n : Fin 6) : R2 :=
  ((K.1 : ℝ) + lam N K n * ((dir n).1 : ℝ), (K.2 : ℝ) + lam N K n * ((dir n).2 : ℝ))

theorem shift_inner (N : Int) (K : Int × Int) (h : Inner N K) : shift N K = pt K := by
  rw [inner_iff, forall6] at h
  simp only [form, Matrix.cons_val] at h
  unfold shift pt
  rw [if_neg (by omega), if_neg (by omega), if_neg (by omega), if_neg (by omega), if_neg (by omega), if_neg (by omega)]

theorem shift_pair (N x y : Int) : shift N (x, y) =
    if x - y > N then ((x : ℝ) - 1 / 2, (y : ℝ) + 1 / 2)
    else if x - y < -N then ((x : ℝ) + 1 / 2, (y : ℝ) - 1 / 2)
    else if 2 * x + y > N then ((x : ℝ) - 1 / 2, (y : ℝ))
    else if 2 * x + y < -N then ((x : ℝ) + 1 / 2, (y : ℝ))
    else if x + 2 * y > N then ((x : ℝ), (y : ℝ) - 1 / 2)
    else if x + 2 * y < -N then ((x : ℝ), (y : ℝ) + 1 / 2)
    else ((x : ℝ), (y : ℝ)) := rfl

theorem shift_dir (N : Int) (K : Int × Int) (h : Inner N K) (n : Fin 6) : shift N (K.1 + (dir n).1, K.2 + (dir n).2) = tip N K n := by
  rw [inner_iff, forall6] at h
  simp only [form, Matrix.cons_val] at h
  obtain ⟨h0, h1, h2, h3, h4, h5⟩ := h
  fin_cases n
  · show shift N (K.1 + 1, K.2 + 0) = ((K.1 : ℝ) + (if 2 * K.1 + K.2 = N - 1 then 1 / 2 else 1) * ((1 : Int) : ℝ), (K.2 : ℝ) + (if 2 * K.1 + K.2 = N - 1 then 1 / 2 else 1) * ((0 : Int) : ℝ))
    rw [shift_pair]
    by_cases h : 2 * K.1 + K.2 = N - 1 <;>
      (repeat (first | rw [if_pos (by omega)] | rw [if_neg (by omega)])) <;> refine Prod.ext ?_ ?_ <;> push_cast <;> ring
  · show shift N (K.1 + 0, K.2 + 1) = ((K.1 : ℝ) + (if K.1 + 2 * K.2 = N - 1 then 1 / 2 else 1) * ((0 : Int) : ℝ), (K.2 : ℝ) + (if K.1 + 2 * K.2 = N - 1 then 1 / 2 else 1) * ((1 : Int) : ℝ))
    rw [shift_pair]
    by_cases h : K.1 + 2 * K.2 = N - 1 <;>
      (repeat (first | rw [if_pos (by omega)] | rw [if_neg (by omega)])) <;> refine Prod.ext ?_ ?_ <;> push_cast <;> ring
  · show shift N (K.1 + (-1), K.2 + 1) = ((K.1 : ℝ) + (if K.2 - K.1 = N - 1 then 1 / 2 else 1) * (((-1) : Int) : ℝ), (K.2 : ℝ) + (if K.2 - K.1 = N - 1 then 1 / 2 else 1) * ((1 : Int) : ℝ))
    rw [shift_pair]
    by_cases h : K.2 - K.1 = N - 1 <;>
      (repeat (first | rw [if_pos (by omega)] | rw [if_neg (by omega)])) <;> refine Prod.ext ?_ ?_ <;> push_cast <;> ring
  · show shift N (K.1 + (-1), K.2 + 0) = ((K.1 : ℝ) + (if -(2 * K.1 + K.2) = N - 1 then 1 / 2 else 1) * (((-1) : Int) : ℝ), (K.2 : ℝ) + (if -(2 * K.1 + K.2) = N - 1 then 1 / 2 else 1) * ((0 : Int) : ℝ))
    rw [shift_pair]
    by_cases h : -(2 * K.1 + K.2) = N - 1 <;>
      (repeat (first | rw [if_pos (by omega)] | rw [if_neg (by omega)])) <;> refine Prod.ext ?_ ?_ <;> push_cast <;> ring
  · show shift N (K.1 + 0, K.2 + (-1)) = ((K.1 : ℝ) + (if -(K.1 + 2 * K.2) = N - 1 then 1 / 2 else 1) * ((0 : Int) : ℝ), (K.2 : ℝ) + (if -(K.1 + 2 * K.2) = N - 1 then 1 / 2 else 1) * (((-1) : Int) : ℝ))
    rw [shift_pair]
    by_cases h : -(K.1 + 2 * K.2) = N - 1 <;>
      (repeat (first | rw [if_pos (by omega)] | rw [if_neg (by omega)])) <;> refine Prod.ext ?_ ?_ <;> push_cast <;> ring
  · show shift N (K.1 + 1, K.2 + (-1)) = ((K.1 : ℝ) + (if K.1 - K.2 = N - 1 then 1 / 2 else 1) * ((1 : Int) : ℝ), (K.2 : ℝ) + (if K.1 - K.2 = N - 1 then 1 / 2 else 1) * (((-1) : Int) : ℝ))
    rw [shift_pair]
    by_cases h : K.1 - K.2 = N - 1 <;>
      (repeat (first | rw [if_pos (by omega)] | rw [if_neg (by omega)])) <;> refine Prod.ext ?_ ?_ <;> push_cast <;> ring

theorem mem_around (N : Int) (K : Int × Int) (h : Inner N K) (l : List R2) :
    l ∈ around N K ↔ ∃ n, l = [pt K, tip N K n, tip N K (n + 1)] := by
  unfold around
  rw [List.mem_map]
  have e : ∀ n : Fin 6, [K, (K.1 + (dir n).1, K.2 + (dir n).2), (K.1 + (dir (n + 1)).1, K.2 + (dir (n + 1)).2)].map (shift N) =
      [pt K, tip N K n, tip N K (n + 1)] := by
    intro n
    rw [List.map_cons, List.map_cons, List.map_cons, shift_inner N K h, shift_dir N K h, shift_dir N K h, List.map_nil]
  constructor
  · rintro ⟨n, _, rfl⟩
    exact ⟨n, e n⟩
  · rintro ⟨n, rfl⟩
    exact ⟨n, by fin_cases n <;> decide, e n⟩

/-! ### Energies -/

/-- Data are interpolated linearly within each triangle of mesh points. -/
theorem energy_wedge (N : Nat) (e : Int → Int → ℝ) (K : Int × Int) (n : Fin 6) (s t : ℝ) (hs : 0 ≤ s) (ht : 0 ≤ t) (hst : s + t ≤ 1) :
    energy N e (wedge K n s t) = (1 - s - t) * ext e N N K.1 K.2 + s * ext e N N (K.1 + (dir n).1) (K.2 + (dir n).2) +
      t * ext e N N (K.1 + (dir (n + 1)).1) (K.2 + (dir (n + 1)).2) := by
  have key := fun (i j : Int) (u v : ℝ) (hu : 0 ≤ u ∧ u ≤ 1) (hv : 0 ≤ v ∧ v ≤ 1) => Interp.cell60 (K := ℝ) e N N i j u v hu.1 hu.2 hv.1 hv.2
  unfold energy wedge
  fin_cases n
  · have h := (key K.1 K.2 s t ⟨hs, by linarith⟩ ⟨ht, by linarith⟩).1 hst
    simp only [smul_eq_mul] at h
    simp only [dir, Matrix.cons_val, Fin.reduceFinMk, Fin.zero_eta, Fin.mk_one, Fin.reduceAdd, zero_add]
    push_cast
    rw [show (K.1 : ℝ) + s * 1 + t * 0 = K.1 + s by ring, show (K.2 : ℝ) + s * 0 + t * 1 = K.2 + t by ring, h]
    simp only [add_zero]
    ring
  · have h := (key (K.1 - 1) K.2 (1 - t) (s + t) ⟨by linarith, by linarith⟩ ⟨by linarith, by linarith⟩).2 (by linarith)
    simp only [smul_eq_mul] at h
    simp only [dir, Matrix.cons_val, Fin.reduceFinMk, Fin.zero_eta, Fin.mk_one, Fin.reduceAdd, zero_add]
    push_cast at h ⊢
    rw [show (K.1 : ℝ) + s * 0 + t * -1 = K.1 - 1 + (1 - t) by ring, show (K.2 : ℝ) + s * 1 + t * 1 = K.2 + (s + t) by ring, h]
    simp only [add_zero, sub_add_cancel, ← sub_eq_add_neg]
    ring
  · have h := (key (K.1 - 1) K.2 (1 - s - t) s ⟨by linarith, by linarith⟩ ⟨by linarith, by linarith⟩).1 (by linarith)
    simp only [smul_eq_mul] at h
    simp only [dir, Matrix.cons_val, Fin.reduceFinMk, Fin.zero_eta, Fin.mk_one, Fin.reduceAdd, zero_add]
    push_cast at h ⊢
    rw [show (K.1 : ℝ) + s * -1 + t * -1 = K.1 - 1 + (1 - s - t) by ring, show (K.2 : ℝ) + s * 1 + t * 0 = K.2 + s by ring, h]
    simp only [add_zero, sub_add_cancel, ← sub_eq_add_neg]
    ring
  · have h := (key (K.1 - 1) (K.2 - 1) (1 - s) (1 - t) ⟨by linarith, by linarith⟩ ⟨by linarith, by linarith⟩).2 (by linarith)
    simp only [smul_eq_mul] at h
    simp only [dir, Matrix.cons_val, Fin.reduceFinMk, Fin.zero_eta, Fin.mk_one, Fin.reduceAdd, zero_add]
    push_cast at h ⊢
    rw [show (K.1 : ℝ) + s * -1 + t * 0 = K.1 - 1 + (1 - s) by ring, show (K.2 : ℝ) + s * 0 + t * -1 = K.2 - 1 + (1 - t) by ring, h]
    simp only [add_zero, sub_add_cancel, ← sub_eq_add_neg]
    ring
  · have h := (key K.1 (K.2 - 1) t (1 - s - t) ⟨by linarith, by linarith⟩ ⟨by linarith, by linarith⟩).1 (by linarith)
    simp only [smul_eq_mul] at h
    simp only [dir, Matrix.cons_val, Fin.reduceFinMk, Fin.zero_eta, Fin.mk_one, Fin.reduceAdd, zero_add]
    push_cast at h ⊢
    rw [show (K.1 : ℝ) + s * 0 + t * 1 = K.1 + t by ring, show (K.2 : ℝ) + s * -1 + t * -1 = K.2 - 1 + (1 - s - t) by ring, h]
    simp only [add_zero, sub_add_cancel, ← sub_eq_add_neg]
    ring
  · have h := (key K.1 (K.2 - 1) (s + t) (1 - s) ⟨by linarith, by linarith⟩ ⟨by linarith, by linarith⟩).2 (by linarith)
    simp only [smul_eq_mul] at h
    simp only [dir, Matrix.cons_val, Fin.reduceFinMk, Fin.zero_eta, Fin.mk_one, Fin.reduceAdd, zero_add]
    push_cast at h ⊢
    rw [show (K.1 : ℝ) + s * 1 + t * 1 = K.1 + (s + t) by ring, show (K.2 : ℝ) + s * -1 + t * 0 = K.2 - 1 + (1 - s) by ring, h]
    simp only [add_zero, sub_add_cancel, ← sub_eq_add_neg]
    ring

/-- Functions that are linear in a triangle. -/
def Aff (f : R2 → ℝ) (a b c : R2) : Prop := ∀ u v w : ℝ, 0 ≤ u → 0 ≤ v → 0 ≤ w → u + v + w = 1 → f (u • a + v • b + w • c) = u * f a + v * f b + w * f c

theorem lam_bounds (N : Int) (K : Int × Int) (n : Fin 6) : 0 < lam N K n ∧ lam N K n ≤ 1 := by
  unfold lam
  split <;> norm_num

theorem hull_wedge (N : Int) (K : Int × Int) (n : Fin 6) (u v w : ℝ) (h : u + v + w = 1) :
    u • pt K + v • tip N K n + w • tip N K (n + 1) = wedge K n (v * lam N K n) (w * lam N K (n + 1)) := by
  unfold pt tip wedge
  refine Prod.ext ?_ ?_ <;> simp only [Prod.smul_fst, Prod.smul_snd, Prod.fst_add, Prod.snd_add, smul_eq_mul]
  · linear_combination (K.1 : ℝ) * h
  · linear_combination (K.2 : ℝ) * h

theorem energy_aff (N : Nat) (e : Int → Int → ℝ) (K : Int × Int) (n : Fin 6) : Aff (energy N e) (pt K) (tip N K n) (tip N K (n + 1)) := by
  intro u v w hu hv hw h
  obtain ⟨a0, a1⟩ := lam_bounds N K n
  obtain ⟨b0, b1⟩ := lam_bounds N K (n + 1)
  have key := fun (v w : ℝ) (hv : 0 ≤ v) (hw : 0 ≤ w) (h : v + w ≤ 1) =>
    energy_wedge N e K n (v * lam N K n) (w * lam N K (n + 1)) (by positivity) (by positivity) (by nlinarith)
  have h0 := key 0 0 le_rfl le_rfl (by norm_num)
  have h1 := key 1 0 (by norm_num) le_rfl (by norm_num)
  have h2 := key 0 1 le_rfl (by norm_num) (by norm_num)
  have h3 := key v w hv hw (by linarith)
  rw [← hull_wedge N K n 1 0 0 (by norm_num)] at h0
  rw [← hull_wedge N K n 0 1 0 (by norm_num)] at h1
  rw [← hull_wedge N K n 0 0 1 (by norm_num)] at h2
  rw [← hull_wedge N K n u v w h] at h3
  simp only [one_smul, zero_smul, add_zero, zero_add] at h0 h1 h2
  rw [h3, h0, h1, h2]
  have : u = 1 - v - w := by linarith
  rw [this]
  ring

/-! ### Sorted corners -/

theorem hull_swap12 (a b c : R2) : hull a b c = hull b a c := by
  ext p
  constructor <;> rintro ⟨u, v, w, hu, hv, hw, h, rfl⟩ <;> exact ⟨v, u, w, hv, hu, hw, by linarith, by module⟩

theorem hull_swap23 (a b c : R2) : hull a b c = hull a c b := by
  ext p
  constructor <;> rintro ⟨u, v, w, hu, hv, hw, h, rfl⟩ <;> exact ⟨u, w, v, hu, hw, hv, by linarith, by module⟩

theorem Aff.swap12 {f : R2 → ℝ} {a b c : R2} (h : Aff f a b c) : Aff f b a c := by
  intro u v w hu hv hw e
  have := h v u w hv hu hw (by linarith)
  rw [show u • b + v • a + w • c = v • a + u • b + w • c by module, this]
  ring

theorem Aff.swap23 {f : R2 → ℝ} {a b c : R2} (h : Aff f a b c) : Aff f a c b := by
  intro u v w hu hv hw e
  have := h u w v hu hw hv (by linarith)
  rw [show u • a + v • c + w • b = u • a + w • b + v • c by module, this]
  ring

theorem iso_aff (f : R2 → ℝ) (a b c : R2) (h : Aff f a b c) (E : ℝ) : isoPoints E ⟨a, b, c, f a, f b, f c⟩ = {p | p ∈ hull a b c ∧ f p = E} := by
  ext p
  constructor
  · rintro ⟨u, v, w, hu, hv, hw, e, hE, rfl⟩
    exact ⟨⟨u, v, w, hu, hv, hw, e, rfl⟩, by rw [← hE]; exact h u v w hu hv hw e⟩
  · rintro ⟨⟨u, v, w, hu, hv, hw, e, rfl⟩, hE⟩
    exact ⟨u, v, w, hu, hv, hw, e, by rw [← hE]; exact (h u v w hu hv hw e).symm, rfl⟩

theorem key_le {f : R2 → ℝ} {x y : R2} (h : keyLe f x y) : f x ≤ f y := by
  rcases h with h | h
  · exact h.le
  · exact h.1.le

theorem key_ge {f : R2 → ℝ} {x y : R2} (h : ¬keyLe f x y) : f y ≤ f x := by
  by_contra hc
  exact h (Or.inl (not_le.1 hc))

/-- The sorted triangle. -/
structure Sorted (f : R2 → ℝ) (a b c : R2) (t : Tri R2) : Prop where
  low : t.A ≤ t.B
  high : t.B ≤ t.C
  energy : t.A = f t.i ∧ t.B = f t.j ∧ t.C = f t.k
  corner : (t.i = a ∨ t.i = b ∨ t.i = c) ∧ (t.j = a ∨ t.j = b ∨ t.j = c) ∧ (t.k = a ∨ t.k = b ∨ t.k = c)
  iso : ∀ E, isoPoints E t = {p | p ∈ hull a b c ∧ f p = E}

theorem sorted_spec (f : R2 → ℝ) (a b c : R2) (h : Aff f a b c) : ∃ t, toTri f [a, b, c] = [t] ∧ Sorted f a b c t := by
  have mk : ∀ i j k : R2, [a, b, c].insertionSort (keyLe f) = [i, j, k] → f i ≤ f j → f j ≤ f k → Aff f i j k → hull i j k = hull a b c →
      ((i = a ∨ i = b ∨ i = c) ∧ (j = a ∨ j = b ∨ j = c) ∧ (k = a ∨ k = b ∨ k = c)) →
      ∃ t, toTri f [a, b, c] = [t] ∧ Sorted f a b c t := by
    intro i j k e h1 h2 h3 h4 h5
    refine ⟨⟨i, j, k, f i, f j, f k⟩, by unfold toTri; rw [e], h1, h2, ⟨rfl, rfl, rfl⟩, h5, fun E => ?_⟩
    rw [iso_aff f i j k h3 E, h4]
  by_cases hbc : keyLe f b c
  · by_cases hab : keyLe f a b
    · exact mk a b c (by simp [List.insertionSort, List.orderedInsert, hbc, hab]) (key_le hab) (key_le hbc) h rfl (by simp)
    · by_cases hac : keyLe f a c
      · exact mk b a c (by simp [List.insertionSort, List.orderedInsert, hbc, hab, hac]) (key_ge hab) (key_le hac) h.swap12 (hull_swap12 _ _ _) (by simp)
      · exact mk b c a (by simp [List.insertionSort, List.orderedInsert, hbc, hab, hac]) (key_le hbc) (key_ge hac) h.swap12.swap23
          (by rw [hull_swap23, hull_swap12]) (by simp)
  · by_cases hac : keyLe f a c
    · exact mk a c b (by simp [List.insertionSort, List.orderedInsert, hbc, hac]) (key_le hac) (key_ge hbc) h.swap23 (hull_swap23 _ _ _) (by simp)
    · by_cases hab : keyLe f a b
      · exact mk c a b (by simp [List.insertionSort, List.orderedInsert, hbc, hab, hac]) (key_ge hac) (key_le hab) h.swap23.swap12
          (by rw [hull_swap12, hull_swap23]) (by simp)
      · exact mk c b a (by simp [List.insertionSort, List.orderedInsert, hbc, hab, hac]) (key_ge hbc) (key_ge hab) h.swap23.swap12.swap23
          (by rw [hull_swap23, hull_swap12, hull_swap23]) (by simp)

theorem mem_triangles (N : Nat) (hN : 0 < N) (e : Int → Int → ℝ) (t : Tri R2) (ht : t ∈ triangles N e) :
    ∃ K n, Inner N K ∧ Sorted (energy N e) (pt K) (tip N K n) (tip N K (n + 1)) t := by
  unfold triangles at ht
  obtain ⟨l, hl, ht⟩ := List.mem_flatMap.1 ht
  obtain ⟨K, hK, hl⟩ := (mem_corners N hN l).1 hl
  obtain ⟨n, rfl⟩ := (mem_around N K hK l).1 hl
  obtain ⟨t', e1, e2⟩ := sorted_spec _ _ _ _ (energy_aff N e K n)
  rw [e1, List.mem_singleton] at ht
  subst ht
  exact ⟨K, n, hK, e2⟩

theorem triangle_exists (N : Nat) (hN : 0 < N) (e : Int → Int → ℝ) (K : Int × Int) (hK : Inner N K) (n : Fin 6) :
    ∃ t ∈ triangles N e, Sorted (energy N e) (pt K) (tip N K n) (tip N K (n + 1)) t := by
  obtain ⟨t, e1, e2⟩ := sorted_spec _ _ _ _ (energy_aff N e K n)
  exact ⟨t, List.mem_flatMap.2 ⟨_, (mem_corners N hN _).2 ⟨K, hK, (mem_around N K hK _).2 ⟨n, rfl⟩⟩, by rw [e1]; simp⟩, e2⟩

/-! ### Triangles are part of the zone -/

theorem formR_linear (n : Fin 6) (a b c : R2) (u v w : ℝ) : formR n (u • a + v • b + w • c) = u * formR n a + v * formR n b + w * formR n c := by
  fin_cases n <;> simp [formR] <;> ring

theorem formR_pt (n : Fin 6) (K : Int × Int) : formR n (pt K) = form n K := by
  fin_cases n <;> simp [formR, form, pt]

theorem pt_zone (N : Nat) (K : Int × Int) (h : Inner N K) (m : Fin 6) : formR m (pt K) ≤ N := by
  rw [formR_pt]
  have := (inner_iff N K).1 h m
  exact_mod_cast (by omega : form m K ≤ N)

theorem tip_zone (N : Nat) (K : Int × Int) (h : Inner N K) (n m : Fin 6) : formR m (tip N K n) ≤ N := by
  rw [inner_iff, forall6] at h
  simp only [form, Matrix.cons_val] at h
  obtain ⟨h0, h1, h2, h3, h4, h5⟩ := h
  have r0 : (2 : ℝ) * K.1 + K.2 ≤ N - 1 := by exact_mod_cast h0
  have r1 : (K.1 : ℝ) + 2 * K.2 ≤ N - 1 := by exact_mod_cast h1
  have r2 : (K.2 : ℝ) - K.1 ≤ N - 1 := by exact_mod_cast h2
  have r3 : -((2 : ℝ) * K.1 + K.2) ≤ N - 1 := by exact_mod_cast h3
  have r4 : -((K.1 : ℝ) + 2 * K.2) ≤ N - 1 := by exact_mod_cast h4
  have r5 : (K.1 : ℝ) - K.2 ≤ N - 1 := by exact_mod_cast h5
  obtain ⟨a0, a1⟩ := lam_bounds N K n
  have a2 : ((form n K : Int) : ℝ) + 2 * lam N K n ≤ N := by
    unfold lam
    split
    · next h =>
      rw [h]
      push_cast
      linarith
    · next h =>
      have hle : form n K ≤ N - 2 := by
        have : form n K ≤ N - 1 := by fin_cases n <;> simp [form] <;> omega
        omega
      have : ((form n K : Int) : ℝ) ≤ N - 2 := by exact_mod_cast hle
      linarith
  generalize hl : lam N K n = l at *
  unfold tip
  rw [hl]
  fin_cases n <;> simp [form] at a2 <;> fin_cases m <;> simp [formR, dir] <;> linarith

theorem hull_zone (N : Nat) (hN : 0 < N) (K : Int × Int) (h : Inner N K) (n : Fin 6) : hull (pt K) (tip N K n) (tip N K (n + 1)) ⊆ zone N := by
  rintro p ⟨u, v, w, hu, hv, hw, e, rfl⟩
  rw [mem_zone N hN, inZone_iff]
  intro m
  rw [formR_linear]
  calc u * formR m (pt K) + v * formR m (tip N K n) + w * formR m (tip N K (n + 1)) ≤ u * N + v * N + w * N := by
        gcongr
        · exact pt_zone N K h m
        · exact tip_zone N K h n m
        · exact tip_zone N K h (n + 1) m
    _ = (u + v + w) * N := by ring
    _ = N := by rw [e, one_mul]

/-! ### Triangles cover the zone -/

theorem formR_wedge (K : Int × Int) (n : Fin 6) (s t : ℝ) :
    formR n (wedge K n s t) = form n K + 2 * s + t ∧ formR (n + 1) (wedge K n s t) = form (n + 1) K + s + 2 * t := by
  fin_cases n <;> simp [formR, form, wedge, dir] <;> constructor <;> ring

theorem not_both (N : Nat) (h3 : 3 ∣ N) (K : Int × Int) (n : Fin 6) : ¬(form n K = N - 1 ∧ form (n + 1) K = N - 1) := by
  obtain ⟨M, rfl⟩ := h3
  fin_cases n <;> simp [form] <;> omega

theorem wedge_cover (N : Nat) (hN : 0 < N) (h3 : 3 ∣ N) (K : Int × Int) (n : Fin 6) (s t : ℝ) (hs : 0 ≤ s) (ht : 0 ≤ t)
    (hst : s + t ≤ 1) (hz : wedge K n s t ∈ zone N) : wedge K n s t ∈ hull (pt K) (tip N K n) (tip N K (n + 1)) := by
  rw [mem_zone N hN, inZone_iff] at hz
  obtain ⟨f1, f2⟩ := formR_wedge K n s t
  have z1 := hz n
  have z2 := hz (n + 1)
  rw [f1] at z1
  rw [f2] at z2
  have nb := not_both N h3 K n
  have key : s / lam N K n + t / lam N K (n + 1) ≤ 1 := by
    unfold lam
    split
    · next h =>
      rw [if_neg fun h' => nb ⟨h, h'⟩]
      rw [h] at z1
      push_cast at z1
      linarith
    · split
      · next h =>
        rw [h] at z2
        push_cast at z2
        linarith
      · linarith
  obtain ⟨a0, a1⟩ := lam_bounds N K n
  obtain ⟨b0, b1⟩ := lam_bounds N K (n + 1)
  refine ⟨1 - s / lam N K n - t / lam N K (n + 1), s / lam N K n, t / lam N K (n + 1), by linarith, by positivity, by positivity, by ring, ?_⟩
  rw [hull_wedge _ _ _ _ _ _ (by ring), div_mul_cancel₀ _ a0.ne', div_mul_cancel₀ _ b0.ne']

theorem find_wedge (N : Nat) (hN : 0 < N) (h3 : 3 ∣ N) (p : R2) (hp : p ∈ zone N) :
    ∃ K n s t, Inner N K ∧ 0 ≤ s ∧ 0 ≤ t ∧ s + t ≤ 1 ∧ p = wedge K n s t := by
  rw [mem_zone N hN, inZone_iff, forall6] at hp
  simp only [formR, Matrix.cons_val] at hp
  obtain ⟨M, rfl⟩ := h3
  have hM : 0 < M := by omega
  set i := ⌊p.1⌋ with hi
  set j := ⌊p.2⌋ with hj
  obtain ⟨u, hu⟩ : ∃ u, u = p.1 - i := ⟨_, rfl⟩
  obtain ⟨v, hv⟩ : ∃ v, v = p.2 - j := ⟨_, rfl⟩
  have hp1 : p.1 = i + u := by linarith
  have hp2 : p.2 = j + v := by linarith
  have u0 : 0 ≤ u := by have := Int.floor_le p.1; linarith
  have u1 : u < 1 := by have := Int.lt_floor_add_one p.1; linarith
  have v0 : 0 ≤ v := by have := Int.floor_le p.2; linarith
  have v1 : v < 1 := by have := Int.lt_floor_add_one p.2; linarith
  clear_value i j
  clear hi hj hu hv
  obtain ⟨x, y⟩ := p
  simp only at hp hp1 hp2
  subst hp1 hp2
  push_cast at hp
  obtain ⟨z0, z1, z2, z3, z4, z5⟩ := hp
  have inner' : ∀ K : Int × Int, Inner (3 * M : ℕ) K ↔ (2 * K.1 + K.2 ≤ 3 * M - 1 ∧ K.1 + 2 * K.2 ≤ 3 * M - 1 ∧ K.2 - K.1 ≤ 3 * M - 1 ∧
      -(2 * K.1 + K.2) ≤ 3 * M - 1 ∧ -(K.1 + 2 * K.2) ≤ 3 * M - 1 ∧ K.1 - K.2 ≤ 3 * M - 1) := by
    intro K
    rw [inner_iff, forall6]
    simp only [form, Matrix.cons_val]
    push_cast
    rfl
  by_cases h0 : u = 0 ∧ v = 0
  · obtain ⟨rfl, rfl⟩ := h0
    simp only [add_zero] at *
    have y0 : 2 * i + j ≤ 3 * M := by exact_mod_cast z0
    have y1 : i + 2 * j ≤ 3 * M := by exact_mod_cast z1
    have y2 : j - i ≤ 3 * M := by exact_mod_cast z2
    have y3 : -(2 * i + j) ≤ 3 * M := by exact_mod_cast z3
    have y4 : -(i + 2 * j) ≤ 3 * M := by exact_mod_cast z4
    have y5 : i - j ≤ 3 * M := by exact_mod_cast z5
    by_cases hin : Inner (3 * M : ℕ) (i, j)
    · exact ⟨(i, j), 0, 0, 0, hin, le_rfl, le_rfl, by norm_num, by simp [wedge]⟩
    · rw [inner'] at hin
      simp only at hin
      have : 2 * i + j = 3 * M ∨ i + 2 * j = 3 * M ∨ j - i = 3 * M ∨ -(2 * i + j) = 3 * M ∨ -(i + 2 * j) = 3 * M ∨ i - j = 3 * M := by omega
      rcases this with h | h | h | h | h | h
      · exact ⟨(i - 1, j), 0, 1, 0, (inner' _).2 (by simp only; omega), by norm_num, le_rfl, by norm_num, by simp [wedge, dir]⟩
      · exact ⟨(i, j - 1), 1, 1, 0, (inner' _).2 (by simp only; omega), by norm_num, le_rfl, by norm_num, by simp [wedge, dir]⟩
      · exact ⟨(i + 1, j - 1), 2, 1, 0, (inner' _).2 (by simp only; omega), by norm_num, le_rfl, by norm_num, by simp [wedge, dir]⟩
      · exact ⟨(i + 1, j), 3, 1, 0, (inner' _).2 (by simp only; omega), by norm_num, le_rfl, by norm_num, by simp [wedge, dir]⟩
      · exact ⟨(i, j + 1), 4, 1, 0, (inner' _).2 (by simp only; omega), by norm_num, le_rfl, by norm_num, by simp [wedge, dir]⟩
      · exact ⟨(i - 1, j + 1), 5, 1, 0, (inner' _).2 (by simp only; omega), by norm_num, le_rfl, by norm_num, by simp [wedge, dir]⟩
  · have huv : 0 < u + v := by
      rcases lt_or_eq_of_le u0 with h | h
      · linarith
      · rcases lt_or_eq_of_le v0 with h' | h'
        · linarith
        · exact absurd ⟨h.symm, h'.symm⟩ h0
    rcases le_total (u + v) 1 with hle | hge
    · have y0 : 2 * i + j ≤ 3 * M - 1 := by
        have : (2 : ℝ) * i + j < 3 * M := by linarith
        have : 2 * i + j < 3 * M := by exact_mod_cast this
        omega
      have y1 : i + 2 * j ≤ 3 * M - 1 := by
        have : (i : ℝ) + 2 * j < 3 * M := by linarith
        have : i + 2 * j < 3 * M := by exact_mod_cast this
        omega
      have y2 : j - i ≤ 3 * M := by
        have : (j : ℝ) - i < 3 * M + 1 := by linarith
        have : j - i < 3 * M + 1 := by exact_mod_cast this
        omega
      have y3 : -(2 * i + j) ≤ 3 * M + 1 := by
        have : -((2 : ℝ) * i + j) < 3 * M + 2 := by linarith
        have : -(2 * i + j) < 3 * M + 2 := by exact_mod_cast this
        omega
      have y4 : -(i + 2 * j) ≤ 3 * M + 1 := by
        have : -((i : ℝ) + 2 * j) < 3 * M + 2 := by linarith
        have : -(i + 2 * j) < 3 * M + 2 := by exact_mod_cast this
        omega
      have y5 : i - j ≤ 3 * M := by
        have : (i : ℝ) - j < 3 * M + 1 := by linarith
        have : i - j < 3 * M + 1 := by exact_mod_cast this
        omega
      have hv : Inner (3 * M : ℕ) (i, j) ∨ Inner (3 * M : ℕ) (i + 1, j) ∨ Inner (3 * M : ℕ) (i, j + 1) := by
        rw [inner', inner', inner']
        simp only
        omega
      rcases hv with h | h | h
      · exact ⟨(i, j), 0, u, v, h, u0, v0, hle, by simp [wedge, dir]⟩
      · refine ⟨(i + 1, j), 2, v, 1 - u - v, h, v0, by linarith, by linarith, ?_⟩
        simp [wedge, dir]
        ring
      · refine ⟨(i, j + 1), 4, 1 - u - v, u, h, by linarith, u0, by linarith, ?_⟩
        simp [wedge, dir]
        ring
    · have y0 : 2 * i + j ≤ 3 * M - 2 := by
        have : (2 : ℝ) * i + j < 3 * M - 1 := by linarith
        have : 2 * i + j < 3 * M - 1 := by exact_mod_cast this
        omega
      have y1 : i + 2 * j ≤ 3 * M - 2 := by
        have : (i : ℝ) + 2 * j < 3 * M - 1 := by linarith
        have : i + 2 * j < 3 * M - 1 := by exact_mod_cast this
        omega
      have y2 : j - i ≤ 3 * M := by
        have : (j : ℝ) - i < 3 * M + 1 := by linarith
        have : j - i < 3 * M + 1 := by exact_mod_cast this
        omega
      have y3 : -(2 * i + j) ≤ 3 * M + 2 := by
        have : -((2 : ℝ) * i + j) < 3 * M + 3 := by linarith
        have : -(2 * i + j) < 3 * M + 3 := by exact_mod_cast this
        omega
      have y4 : -(i + 2 * j) ≤ 3 * M + 2 := by
        have : -((i : ℝ) + 2 * j) < 3 * M + 3 := by linarith
        have : -(i + 2 * j) < 3 * M + 3 := by exact_mod_cast this
        omega
      have y5 : i - j ≤ 3 * M := by
        have : (i : ℝ) - j < 3 * M + 1 := by linarith
        have : i - j < 3 * M + 1 := by exact_mod_cast this
        omega
      have hv : Inner (3 * M : ℕ) (i + 1, j + 1) ∨ Inner (3 * M : ℕ) (i + 1, j) ∨ Inner (3 * M : ℕ) (i, j + 1) := by
        rw [inner', inner', inner']
        simp only
        omega
      rcases hv with h | h | h
      · refine ⟨(i + 1, j + 1), 3, 1 - u, 1 - v, h, by linarith, by linarith, by linarith, ?_⟩
        simp [wedge, dir]
      · refine ⟨(i + 1, j), 1, u + v - 1, 1 - u, h, by linarith, by linarith, by linarith, ?_⟩
        simp [wedge, dir]
        ring
      · refine ⟨(i, j + 1), 5, 1 - v, u + v - 1, h, by linarith, by linarith, by linarith, ?_⟩
        simp [wedge, dir]
        ring

/-! ### Corners of the zone -/

theorem wedge_corner (N : Nat) (h3 : ¬3 ∣ N) (K : Int × Int) (h : Inner N K) (n : Fin 6) (s t : ℝ) (hs : 0 ≤ s) (ht : 0 ≤ t) (hst : s + t ≤ 1)
    (hcut : form n K = N - 1 ∧ form (n + 1) K = N - 1 → s + t ≤ 1 / 2) : wedge K n s t ≠ ((N : ℝ) / 3, (N : ℝ) / 3) := by
  rw [inner_iff, forall6] at h
  simp only [form, Matrix.cons_val] at h
  obtain ⟨h0, h1, h2, h3', h4, h5⟩ := h
  have h3'' : ¬(3 : Int) ∣ N := by omega
  intro hw
  have e1 := congrArg Prod.fst hw
  have e2 := congrArg Prod.snd hw
  simp only [wedge] at e1 e2
  have toInt : ∀ a b : Int, (a : ℝ) ≤ b → a ≤ b := fun a b h => by exact_mod_cast h
  fin_cases n <;> simp [dir] at e1 e2 <;> simp [form] at hcut
  · have b1 : 3 * K.1 ≤ N := toInt _ _ (by push_cast; linarith)
    have b2 : 3 * K.2 ≤ N := toInt _ _ (by push_cast; linarith)
    have b3 : (N : Int) - 3 * K.1 + (N - 3 * K.2) ≤ 3 := toInt _ _ (by push_cast; linarith)
    have c1 : 3 * K.1 = N - 1 := by omega
    have c2 : 3 * K.2 = N - 1 := by omega
    have := hcut (by omega) (by omega)
    have d1 : (3 : ℝ) * K.1 = N - 1 := by exact_mod_cast c1
    have d2 : (3 : ℝ) * K.2 = N - 1 := by exact_mod_cast c2
    linarith
  · have b1 : (N : Int) ≤ 3 * K.1 := toInt _ _ (by push_cast; linarith)
    have b2 : (N : Int) - 3 * K.2 ≤ 3 := toInt _ _ (by push_cast; linarith)
    omega
  · have b1 : (N : Int) - 3 * K.2 ≤ 3 * K.1 - N := toInt _ _ (by push_cast; linarith)
    have b2 : (N : Int) - 3 * K.2 ≤ 3 := toInt _ _ (by push_cast; linarith)
    have b3 : (N : Int) ≤ 3 * K.1 := toInt _ _ (by push_cast; linarith)
    omega
  · have b1 : (N : Int) ≤ 3 * K.1 := toInt _ _ (by push_cast; linarith)
    have b2 : (N : Int) ≤ 3 * K.2 := toInt _ _ (by push_cast; linarith)
    omega
  · have b1 : (N : Int) - 3 * K.1 ≤ 3 * K.2 - N := toInt _ _ (by push_cast; linarith)
    have b2 : 3 * K.1 ≤ N := toInt _ _ (by push_cast; linarith)
    have b3 : 3 * K.2 - N ≤ 3 := toInt _ _ (by push_cast; linarith)
    omega
  · have b1 : (N : Int) ≤ 3 * K.2 := toInt _ _ (by push_cast; linarith)
    have b2 : (N : Int) - 3 * K.1 ≤ 3 := toInt _ _ (by push_cast; linarith)
    omega

theorem hull_corner (N : Nat) (h3 : ¬3 ∣ N) (K : Int × Int) (h : Inner N K) (n : Fin 6) :
    ((N : ℝ) / 3, (N : ℝ) / 3) ∉ hull (pt K) (tip N K n) (tip N K (n + 1)) := by
  rintro ⟨u, v, w, hu, hv, hw, e, hp⟩
  rw [hull_wedge N K n u v w e] at hp
  obtain ⟨a0, a1⟩ := lam_bounds N K n
  obtain ⟨b0, b1⟩ := lam_bounds N K (n + 1)
  refine wedge_corner N h3 K h n _ _ (by positivity) (by positivity) (by nlinarith) ?_ hp.symm
  rintro ⟨h1, h2⟩
  unfold lam
  rw [if_pos h1, if_pos h2]
  linarith

/-! ### The whole isoline -/

/-- All corners are points of the mesh or halfway between them. -/
theorem tip_half (N : Int) (K : Int × Int) (n : Fin 6) : ∃ a b : Int, tip N K n = ((a : ℝ) / 2, (b : ℝ) / 2) := by
  unfold tip lam
  split
  · refine ⟨2 * K.1 + (dir n).1, 2 * K.2 + (dir n).2, Prod.ext ?_ ?_⟩ <;> push_cast <;> ring
  · refine ⟨2 * K.1 + 2 * (dir n).1, 2 * K.2 + 2 * (dir n).2, Prod.ext ?_ ?_⟩ <;> push_cast <;> ring

theorem pt_half (K : Int × Int) : ∃ a b : Int, pt K = ((a : ℝ) / 2, (b : ℝ) / 2) := by
  refine ⟨2 * K.1, 2 * K.2, Prod.ext ?_ ?_⟩ <;> simp [pt]

theorem segment_iso (E : ℝ) (t : Tri R2) (hAB : t.A ≤ t.B) (hBC : t.B ≤ t.C) (l : List (R2 × R2)) (h : triSegment E t = some l) (s : R2 × R2)
    (hs : s ∈ l) : isoPoints E t = between s.1 s.2 := by
  have h1 : ¬(E = t.A ∧ E = t.B ∧ E < t.C) := fun hc => by
    rw [(C71_exception E t).2 hc] at h
    exact absurd h (by simp)
  have h2 : t.A < E ∧ E ≤ t.B ∨ t.B ≤ E ∧ E < t.C := by
    by_contra hc
    push Not at hc
    have : triSegment E t = some [] := by
      unfold triSegment
      rw [if_neg (fun h => absurd h.2 (not_le.2 (hc.1 h.1))), if_neg (fun h => absurd h.2 (not_lt.2 (hc.2 h.1)))]
    rw [this, Option.some_inj] at h
    subst h
    simp at hs
  have h3 : ¬(E = t.A ∧ t.A = t.B) := by
    rintro ⟨h4, h5⟩
    rcases h2 with h2 | h2
    · linarith [h2.1]
    · exact h1 ⟨h4, h4.trans h5, h2.2⟩
  obtain ⟨s', h4, h5⟩ := C71_segment_partial E t hAB hBC h2 h3
  rw [h4, Option.some_inj] at h
  subst h
  rw [List.mem_singleton] at hs
  rw [hs, h5]

/-- C71 (zone): whatever the data, the energy, the number of processes, and the order of the set of triangles, all points of the lines
drawn belong to the Brillouin zone and have the given energy according to the linear interpolation of the data. -/
theorem C71_inside (N : Nat) (hN : 0 < N) (e : Int → Int → ℝ) (E : ℝ) (ts : List (Tri R2)) (hts : ∀ t, t ∈ ts ↔ t ∈ triangles N e)
    (size : Nat) (hs : 0 < size) (S : Finset (R2 × R2)) (hS : allSegments size E ts = some S) :
    ∀ p ∈ drawn S, p ∈ zone N ∧ energy N e p = E := by
  rintro p ⟨s, h1, h2⟩
  obtain ⟨t, h3, l, h4, h5⟩ := (C71_processes size hs E ts S hS s).1 h1
  obtain ⟨K, n, hK, ht⟩ := mem_triangles N hN e t ((hts t).1 h3)
  rw [← segment_iso E t ht.low ht.high l h4 s h5, ht.iso] at h2
  exact ⟨hull_zone N hN K hK n h2.1, h2.2⟩

/-- C71 (zone): if the number of mesh points per dimension is a multiple of three, the lines drawn are exactly the points of the
Brillouin zone with the given energy. It is assumed that no mesh point and no point halfway between mesh points has this very energy. -/
theorem C71_zone_partial (N : Nat) (hN : 0 < N) (h3 : 3 ∣ N) (e : Int → Int → ℝ) (E : ℝ) (hE : ∀ a b : Int, energy N e ((a : ℝ) / 2, (b : ℝ) / 2) ≠ E)
    (ts : List (Tri R2)) (hts : ∀ t, t ∈ ts ↔ t ∈ triangles N e) (size : Nat) (hs : 0 < size) :
    ∃ S, allSegments size E ts = some S ∧ drawn S = {p | p ∈ zone N ∧ energy N e p = E} := by
  have hpt : ∀ K, energy N e (pt K) ≠ E := fun K => by
    obtain ⟨a, b, h⟩ := pt_half K
    rw [h]
    exact hE a b
  have htip : ∀ K n, energy N e (tip N K n) ≠ E := fun K n => by
    obtain ⟨a, b, h⟩ := tip_half N K n
    rw [h]
    exact hE a b
  have hne : ∀ (K : Int × Int) (n : Fin 6) (t : Tri R2), Sorted (energy N e) (pt K) (tip N K n) (tip N K (n + 1)) t → t.A ≠ E ∧ t.B ≠ E ∧ t.C ≠ E := by
    intro K n t ht
    have key : ∀ x : R2, (x = pt K ∨ x = tip N K n ∨ x = tip N K (n + 1)) → energy N e x ≠ E := by
      rintro x (rfl | rfl | rfl)
      · exact hpt K
      · exact htip K n
      · exact htip K (n + 1)
    obtain ⟨c1, c2, c3⟩ := ht.corner
    obtain ⟨d1, d2, d3⟩ := ht.energy
    rw [d1, d2, d3]
    exact ⟨key _ c1, key _ c2, key _ c3⟩
  obtain ⟨S, hS⟩ := C71_defined_partial size E ts (fun t ht h => by
    obtain ⟨K, n, hK, h'⟩ := mem_triangles N hN e t ((hts t).1 ht)
    exact (hne K n t h').1 h.1.symm) hs
  refine ⟨S, hS, Set.Subset.antisymm (C71_inside N hN e E ts hts size hs S hS) ?_⟩
  rintro p ⟨hp, hpE⟩
  obtain ⟨K, n, s, t, hK, hs0, ht0, hst, rfl⟩ := find_wedge N hN h3 p hp
  have hh := wedge_cover N hN h3 K n s t hs0 ht0 hst hp
  obtain ⟨T, hT, ht⟩ := triangle_exists N hN e K hK n
  have hiso : wedge K n s t ∈ isoPoints E T := by
    rw [ht.iso]
    exact ⟨hh, hpE⟩
  obtain ⟨n1, n2, n3⟩ := hne K n T ht
  have hrange : T.A ≤ E ∧ E ≤ T.C := by
    obtain ⟨u, v, w, hu, hv, hw, h1, h2, _⟩ := hiso
    have l := ht.low
    have r := ht.high
    have k1 : E = T.A + v * (T.B - T.A) + w * (T.C - T.A) := by
      rw [← h2]
      linear_combination T.A * h1
    have k2 : E = T.C - u * (T.C - T.A) - v * (T.C - T.B) := by
      rw [← h2]
      linear_combination T.C * h1
    have m1 := mul_nonneg hv (sub_nonneg.2 l)
    have m2 := mul_nonneg hw (sub_nonneg.2 (l.trans r))
    have m3 := mul_nonneg hu (sub_nonneg.2 (l.trans r))
    have m4 := mul_nonneg hv (sub_nonneg.2 r)
    constructor <;> linarith
  have hlt1 : T.A < E := lt_of_le_of_ne hrange.1 n1
  have hlt2 : E < T.C := lt_of_le_of_ne hrange.2 n3.symm
  obtain ⟨g, hg1, hg2⟩ := C71_segment_partial E T ht.low ht.high
    (by
      rcases le_total E T.B with h | h
      · exact Or.inl ⟨hlt1, h⟩
      · exact Or.inr ⟨h, hlt2⟩) (fun h => n1 h.1.symm)
  exact ⟨g, (C71_processes size hs E ts S hS g).2 ⟨T, (hts T).2 hT, [g], hg1, by simp⟩, by rw [← hg2]; exact hiso⟩

/-- C71 (zone): if the number of mesh points per dimension is no multiple of three, the lines never reach the corner of the
Brillouin zone, not even if it has the given energy. -/
theorem C71_corner_violated (N : Nat) (hN : 0 < N) (h3 : ¬3 ∣ N) (e : Int → Int → ℝ) (E : ℝ) (ts : List (Tri R2))
    (hts : ∀ t, t ∈ ts ↔ t ∈ triangles N e) (size : Nat) (hs : 0 < size) (S : Finset (R2 × R2)) (hS : allSegments size E ts = some S) :
    ((N : ℝ) / 3, (N : ℝ) / 3) ∈ zone N ∧ ((N : ℝ) / 3, (N : ℝ) / 3) ∉ drawn S := by
  constructor
  · rw [mem_zone N hN, inZone_iff, forall6]
    have : (0 : ℝ) < N := by exact_mod_cast hN
    simp only [formR, Matrix.cons_val]
    refine ⟨?_, ?_, ?_, ?_, ?_, ?_⟩ <;> linarith
  · rintro ⟨s, h1, h2⟩
    obtain ⟨t, h4, l, h5, h6⟩ := (C71_processes size hs E ts S hS s).1 h1
    obtain ⟨K, n, hK, ht⟩ := mem_triangles N hN e t ((hts t).1 h4)
    rw [← segment_iso E t ht.low ht.high l h5 s h6, ht.iso] at h2
    exact hull_corner N h3 K hK n h2.1

/-! ### Examples -/

/-- If all data are integers, energies at half mesh points are multiples of one half. -/
theorem half_energy (N : Nat) (e : Int → Int → Int) (a b : Int) : ∃ m : Int, energy N (fun i j => (e i j : ℝ)) ((a : ℝ) / 2, (b : ℝ) / 2) = m / 2 := by
  have key : ∀ (i j : Int) (u v : ℝ) (p q : Int), u = p / 2 → v = q / 2 → 0 ≤ p → p ≤ 1 → 0 ≤ q → q ≤ 1 →
      ∃ m : Int, energy N (fun i j => (e i j : ℝ)) ((i : ℝ) + u, (j : ℝ) + v) = m / 2 := by
    intro i j u v p q hu hv p0 p1 q0 q1
    have c : ∀ r : Int, 0 ≤ r → r ≤ 1 → (0 : ℝ) ≤ r / 2 ∧ (r : ℝ) / 2 ≤ 1 / 2 := fun r h0 h1 => by
      have h0' : (0 : ℝ) ≤ r := by exact_mod_cast h0
      have h1' : (r : ℝ) ≤ 1 := by exact_mod_cast h1
      constructor <;> linarith
    have cp := c p p0 p1
    have cq := c q q0 q1
    rw [← hu] at cp
    rw [← hv] at cq
    have h := (Interp.cell60 (K := ℝ) (fun i j => (e i j : ℝ)) N N i j u v cp.1 (by linarith [cp.2]) cq.1 (by linarith [cq.2])).1
      (by linarith [cp.2, cq.2])
    simp only [smul_eq_mul] at h
    unfold energy
    rw [h]
    simp only [ext]
    refine ⟨p * e ((i + 1) % N) (j % N) + q * e (i % N) ((j + 1) % N) + (2 - p - q) * e (i % N) (j % N), ?_⟩
    rw [hu, hv]
    push_cast
    ring
  obtain ⟨m, hm⟩ := key (a / 2) (b / 2) (((a % 2 : Int) : ℝ) / 2) (((b % 2 : Int) : ℝ) / 2) _ _ rfl rfl (by omega) (by omega) (by omega) (by omega)
  refine ⟨m, ?_⟩
  rw [← hm]
  have h2 : ∀ x : Int, (x : ℝ) / 2 = ((x / 2 : Int) : ℝ) + ((x % 2 : Int) : ℝ) / 2 := fun x => by
    have : (x : ℝ) = ((2 * (x / 2) + x % 2 : Int) : ℝ) := by rw [Int.mul_ediv_add_emod]
    rw [this]
    push_cast
    ring
  rw [h2 a, h2 b]

/-- An isoline at one third on a mesh of three times three points with integer data. -/
example : ∃ S, allSegments 4 (1 / 3) (triangles 3 fun i j => ((i + j : Int) : ℝ)) = some S ∧
    drawn S = {p | p ∈ zone 3 ∧ energy 3 (fun i j => ((i + j : Int) : ℝ)) p = 1 / 3} := by
  refine C71_zone_partial 3 (by norm_num) (by norm_num) _ _ (fun a b h => ?_) _ (fun _ => Iff.rfl) 4 (by norm_num)
  obtain ⟨m, hm⟩ := half_energy 3 (fun i j => i + j) a b
  rw [hm] at h
  have : (3 : ℝ) * m = 2 := by linarith
  have : 3 * m = 2 := by exact_mod_cast this
  omega

/-- A point on this line. -/
example : ((1 : ℝ) / 3, (0 : ℝ)) ∈ zone 3 ∧ energy 3 (fun i j => ((i + j : Int) : ℝ)) (1 / 3, 0) = 1 / 3 := by
  constructor
  · rw [mem_zone 3 (by norm_num), inZone_iff, forall6]
    simp only [formR, Matrix.cons_val]
    norm_num
  · have h := energy_wedge 3 (fun i j => ((i + j : Int) : ℝ)) (0, 0) 0 (1 / 3) 0 (by norm_num) le_rfl (by norm_num)
    simpa [wedge, dir, ext] using h

/-- The corner is missing on a mesh of two times two points. -/
example (S : Finset (R2 × R2)) (hS : allSegments 1 (1 / 3) (triangles 2 fun i j => ((i + j : Int) : ℝ)) = some S) :
    (((2 : ℕ) : ℝ) / 3, ((2 : ℕ) : ℝ) / 3) ∉ drawn S :=
  (C71_corner_violated 2 (by norm_num) (by norm_num) _ _ _ (fun _ => Iff.rfl) 1 (by norm_num) S hS).2

end Verif.Isoline
