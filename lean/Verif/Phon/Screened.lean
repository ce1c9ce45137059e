import Verif.Phon.Sequence

/-!
# Reciprocal lattice vectors of skewed cells (C80, C157, C164)

`elphmod/ph.py` 369-396 (`prepare_long_range`): The range of the loops over reciprocal lattice vectors is the cutoff divided by the length of the
reciprocal primitive vectors, where the product of cutoff and length of the primitive vectors would be right. Here, it is shown for which cells
the range is sufficient nevertheless.
-/

namespace Verif.Phon.Screened

open Verif.Lattice (V3 Supercell detSpec)
open Verif.Fourier (phase)
open Verif.TB (superK Call Allowed)
open Verif.Phon.Super (Dual Complete Plane superPolar superA recip at')
open Verif.Phon.Seq

variable {n : Nat}

/-- C80: sufficient condition for arbitrary cells. `norm3 (p.a i) * norm3 (p.b i)` is one for orthogonal cells and larger otherwise; `e` is the square root
of the smallest dielectric constant (one in two dimensions). -/
theorem C80_criterion (p : Polar n) (hp : Dual p) (e : ℝ) (he : 0 < e) (hk : ∀ K : Fin 3 → ℝ, e ^ 2 * ∑ x, K x ^ 2 ≤ keK p K) (Gmax : ℝ) (G2d : Bool)
    (hc : ∀ i : Fin 3, norm3 (p.a i) * norm3 (p.b i) / e * (Real.sqrt (scale p * Gmax) / norm3 fun x => 2 * Real.pi * p.b i x) ≤
      Nat.floor (Real.sqrt (scale p * Gmax) / norm3 fun x => 2 * Real.pi * p.b i x) + 2) : Complete p Gmax G2d := by
  intro m h2 hm
  have hG : e * norm3 (gVec p m) < Real.sqrt (scale p * Gmax) := by
    have h1 : e * norm3 (gVec p m) = Real.sqrt (e ^ 2 * ∑ x, gVec p m x ^ 2) := by
      rw [Real.sqrt_mul (sq_nonneg e), Real.sqrt_sq he.le]
      rfl
    rw [h1]
    exact Real.sqrt_lt_sqrt (mul_nonneg (sq_nonneg e) (Finset.sum_nonneg fun x _ => sq_nonneg _)) (lt_of_le_of_lt (hk _) hm)
  have hdot : ∀ i, dot3 (p.a i) (gVec p m) = 2 * Real.pi * (![(m.1 : ℝ), (m.2.1 : ℝ), (m.2.2 : ℝ)] i) := by
    intro i
    have e : dot3 (p.a i) (gVec p m) = 2 * Real.pi * ((m.1 : ℝ) * dot3 (p.a i) (p.b 0) +
        (m.2.1 : ℝ) * dot3 (p.a i) (p.b 1) + (m.2.2 : ℝ) * dot3 (p.a i) (p.b 2)) := by
      unfold dot3 gVec
      simp only [Fin.sum_univ_three]
      ring
    rw [e, hp, hp, hp]
    fin_cases i <;> simp
  have hbound : ∀ i, ∀ z : Int, (z : ℝ) = (![(m.1 : ℝ), (m.2.1 : ℝ), (m.2.2 : ℝ)] i) →
      (z.natAbs : ℝ) < Nat.floor (Real.sqrt (scale p * Gmax) / norm3 fun x => 2 * Real.pi * p.b i x) + 2 := by
    intro i z hz
    have hpi := Real.pi_pos
    have ha : 0 < norm3 (p.a i) := by
      rcases (norm3_nonneg (p.a i)).lt_or_eq with h | h
      · exact h
      · exfalso
        have := dot3_le (p.a i) (p.b i)
        rw [hp, if_pos rfl, ← h] at this
        simp at this
        linarith
    have hb : 0 < norm3 (p.b i) := by
      rcases (norm3_nonneg (p.b i)).lt_or_eq with h | h
      · exact h
      · exfalso
        have := dot3_le (p.a i) (p.b i)
        rw [hp, if_pos rfl, ← h] at this
        simp at this
        linarith
    refine lt_of_lt_of_le ?_ (hc i)
    have h3 : 2 * Real.pi * |(z : ℝ)| ≤ norm3 (p.a i) * norm3 (gVec p m) := by
      have := dot3_le (p.a i) (gVec p m)
      rw [hdot, ← hz, abs_mul, abs_of_pos (by positivity)] at this
      exact this
    have h4 : (z.natAbs : ℝ) = |(z : ℝ)| := by
      rw [Nat.cast_natAbs, Int.cast_abs]
    rw [h4, norm3_smul _ (by positivity)]
    have h5 : norm3 (p.a i) * norm3 (p.b i) / e * (Real.sqrt (scale p * Gmax) / (2 * Real.pi * norm3 (p.b i))) =
        norm3 (p.a i) * Real.sqrt (scale p * Gmax) / (e * (2 * Real.pi)) := by
      field_simp
    rw [h5, lt_div_iff₀ (by positivity)]
    calc |(z : ℝ)| * (e * (2 * Real.pi)) = e * (2 * Real.pi * |(z : ℝ)|) := by ring
      _ ≤ e * (norm3 (p.a i) * norm3 (gVec p m)) := mul_le_mul_of_nonneg_left h3 he.le
      _ = norm3 (p.a i) * (e * norm3 (gVec p m)) := by ring
      _ < norm3 (p.a i) * Real.sqrt (scale p * Gmax) := mul_lt_mul_of_pos_left hG ha
  have hnr : ∀ i, ∀ z : Int, (z : ℝ) = (![(m.1 : ℝ), (m.2.1 : ℝ), (m.2.2 : ℝ)] i) →
      (i = 2 ∧ (p.lr2d || G2d) = true → z = 0) → z.natAbs ≤ nr p Gmax G2d i := by
    intro i z hz h0
    unfold nr
    split
    · rename_i h
      rw [h0 h]
      simp
    · have h6 : z.natAbs < Nat.floor (Real.sqrt (scale p * Gmax) / norm3 fun x => 2 * Real.pi * p.b i x) + 2 := by
        exact_mod_cast hbound i z hz
      omega
  unfold gList
  refine List.mem_map.2 ⟨m, ?_, rfl⟩
  rw [List.mem_filter, mem_box]
  refine ⟨?_, decide_eq_true hm⟩
  have h0 := hnr 0 m.1 rfl (by simp)
  have h1 := hnr 1 m.2.1 rfl (by simp)
  have h3 := hnr 2 m.2.2 rfl (fun h => h2 (by simpa using h.2))
  omega

/-- Specification: dielectric constants in all directions are at least the square of the product of lengths of primitive and reciprocal primitive vectors:
4 / 3 for hexagonal cells, 3 / 2 for primitive cells of face-centered and body-centered cubic lattices. -/
def Screened (p : Polar n) : Prop := ∀ i : Fin 3, ∀ K : Fin 3 → ℝ, (norm3 (p.a i) * norm3 (p.b i)) ^ 2 * ∑ x, K x ^ 2 ≤ keK p K

theorem one_le_product (p : Polar n) (hp : Dual p) (i : Fin 3) : 1 ≤ norm3 (p.a i) * norm3 (p.b i) := by
  have := dot3_le (p.a i) (p.b i)
  rw [hp, if_pos rfl, abs_one] at this
  exact this

/-- C80: if the medium is polarizable enough, no vector is missed, whatever the cutoff. -/
theorem C80_screened (p : Polar n) (hp : Dual p) (hs : Screened p) (Gmax : ℝ) (G2d : Bool) : Complete p Gmax G2d := by
  obtain ⟨j, hj⟩ : ∃ j : Fin 3, ∀ i : Fin 3, norm3 (p.a i) * norm3 (p.b i) ≤ norm3 (p.a j) * norm3 (p.b j) := by
    obtain ⟨j, -, hj⟩ := Finset.exists_max_image Finset.univ (fun i : Fin 3 => norm3 (p.a i) * norm3 (p.b i)) ⟨0, Finset.mem_univ _⟩
    exact ⟨j, fun i => hj i (Finset.mem_univ _)⟩
  have h1 : 0 < norm3 (p.a j) * norm3 (p.b j) := lt_of_lt_of_le one_pos (one_le_product p hp j)
  refine C80_criterion p hp _ h1 (hs j) Gmax G2d fun i => ?_
  have h2 : norm3 (p.a i) * norm3 (p.b i) / (norm3 (p.a j) * norm3 (p.b j)) ≤ 1 := by
    rw [div_le_one h1]
    exact hj i
  have h3 : 0 ≤ Real.sqrt (scale p * Gmax) / norm3 fun x => 2 * Real.pi * p.b i x := div_nonneg (Real.sqrt_nonneg _) (norm3_nonneg _)
  have h4 := (Nat.lt_floor_add_one (Real.sqrt (scale p * Gmax) / norm3 fun x => 2 * Real.pi * p.b i x)).le
  calc _ ≤ 1 * (Real.sqrt (scale p * Gmax) / norm3 fun x => 2 * Real.pi * p.b i x) := mul_le_mul_of_nonneg_right h2 h3
    _ ≤ _ := by linarith

theorem norm3_sq (v : Fin 3 → ℝ) : norm3 v ^ 2 = dot3 v v := by
  unfold norm3 dot3
  rw [Real.sq_sqrt (Finset.sum_nonneg fun x _ => sq_nonneg _)]
  exact Finset.sum_congr rfl fun x _ => by ring

theorem dot3_comm (u v : Fin 3 → ℝ) : dot3 u v = dot3 v u := by
  unfold dot3
  exact Finset.sum_congr rfl fun x _ => by ring

/-- Products of reciprocal primitive vectors from products of primitive vectors. -/
theorem gram (p : Polar n) (hp : Dual p) (i j : Fin 3) : dot3 (p.a i) (p.b j) = dot3 (p.a i) (p.a 0) * dot3 (p.b 0) (p.b j) +
    dot3 (p.a i) (p.a 1) * dot3 (p.b 1) (p.b j) + dot3 (p.a i) (p.a 2) * dot3 (p.b 2) (p.b j) := by
  have h1 := Super.dot_lin hp (p.a i)
  have h2 : dot3 (Super.lin p.b fun k => dot3 (p.a i) (p.a k)) (p.b j) = dot3 (p.a i) (p.b j) := by rw [h1]
  rw [← h2]
  unfold Super.lin
  have h3 : ∀ (t : Fin 3 → ℝ) (u v w z : Fin 3 → ℝ), dot3 (fun x => t 0 * u x + t 1 * v x + t 2 * w x) z =
      t 0 * dot3 u z + t 1 * dot3 v z + t 2 * dot3 w z := by
    intro t u v w z
    unfold dot3
    simp only [Fin.sum_univ_three]
    ring
  exact h3 (fun k => dot3 (p.a i) (p.a k)) _ _ _ _

/-- Lengths of reciprocal primitive vectors of hexagonal cells. -/
theorem hexagonal_product (p : Polar n) (hp : Dual p) (l s : ℝ) (hl : 0 < l) (hs : s ^ 2 = (l / 2) ^ 2) (h00 : dot3 (p.a 0) (p.a 0) = l)
    (h11 : dot3 (p.a 1) (p.a 1) = l) (h01 : dot3 (p.a 0) (p.a 1) = s) (h02 : dot3 (p.a 0) (p.a 2) = 0) (h12 : dot3 (p.a 1) (p.a 2) = 0) :
    (norm3 (p.a 0) * norm3 (p.b 0)) ^ 2 = 4 / 3 ∧ (norm3 (p.a 1) * norm3 (p.b 1)) ^ 2 = 4 / 3 ∧ (norm3 (p.a 2) * norm3 (p.b 2)) ^ 2 = 1 := by
  have hb := gram p hp
  have e00 := hb 0 0
  have e10 := hb 1 0
  have e11 := hb 1 1
  have e01 := hb 0 1
  have e22 := hb 2 2
  rw [hp] at e00 e10 e11 e01 e22
  rw [dot3_comm (p.b 1) (p.b 0)] at e00 e10
  rw [h00, h01, h02] at e00 e01
  rw [dot3_comm (p.a 1) (p.a 0), h01, h11, h12] at e10 e11
  rw [dot3_comm (p.a 2) (p.a 0), dot3_comm (p.a 2) (p.a 1), h02, h12] at e22
  simp only [if_true, zero_mul, add_zero, zero_add, Fin.isValue, one_ne_zero, zero_ne_one, if_false] at e00 e10 e11 e01 e22
  refine ⟨?_, ?_, ?_⟩
  · rw [mul_pow, norm3_sq, norm3_sq, h00]
    have h1 : (l ^ 2 - s ^ 2) * dot3 (p.b 0) (p.b 0) = l := by linear_combination (-l) * e00 + s * e10
    have h2 : l * (l * dot3 (p.b 0) (p.b 0)) = l * (4 / 3) := by
      rw [hs] at h1
      linear_combination (4 / 3) * h1
    exact mul_left_cancel₀ hl.ne' h2
  · rw [mul_pow, norm3_sq, norm3_sq, h11]
    have h1 : (l ^ 2 - s ^ 2) * dot3 (p.b 1) (p.b 1) = l := by linear_combination (-l) * e11 + s * e01
    have h2 : l * (l * dot3 (p.b 1) (p.b 1)) = l * (4 / 3) := by
      rw [hs] at h1
      linear_combination (4 / 3) * h1
    exact mul_left_cancel₀ hl.ne' h2
  · rw [mul_pow, norm3_sq, norm3_sq, ← e22]

/-- Specification: hexagonal cell, angle of 60 or 120 degrees. -/
structure Hexagonal (a : Fin 3 → Fin 3 → ℝ) : Prop where
  same : dot3 (a 0) (a 0) = dot3 (a 1) (a 1)
  angle : dot3 (a 0) (a 1) = dot3 (a 0) (a 0) / 2 ∨ dot3 (a 0) (a 1) = -(dot3 (a 0) (a 0) / 2)
  perp0 : dot3 (a 0) (a 2) = 0
  perp1 : dot3 (a 1) (a 2) = 0

theorem hexagonal_products (p : Polar n) (hp : Dual p) (hx : Hexagonal p.a) :
    0 < norm3 (p.a 0) ∧ (norm3 (p.a 0) * norm3 (p.b 0)) ^ 2 = 4 / 3 ∧ (norm3 (p.a 1) * norm3 (p.b 1)) ^ 2 = 4 / 3 ∧ (norm3 (p.a 2) * norm3 (p.b 2)) ^ 2 = 1 := by
  have h1 := one_le_product p hp 0
  have h2 : 0 < norm3 (p.a 0) := by
    rcases (norm3_nonneg (p.a 0)).lt_or_eq with h | h
    · exact h
    · rw [← h, zero_mul] at h1
      linarith
  refine ⟨h2, hexagonal_product p hp (dot3 (p.a 0) (p.a 0)) (dot3 (p.a 0) (p.a 1)) ?_ ?_ rfl hx.same.symm rfl hx.perp0 hx.perp1⟩
  · rw [← norm3_sq]
    positivity
  · rcases hx.angle with h | h <;> rw [h] <;> ring

/-- C80: for hexagonal cells, no vector is missed if dielectric constants are at least 4 / 3 (three dimensions). -/
theorem C80_hexagonal_screened (p : Polar n) (hp : Dual p) (hx : Hexagonal p.a) (h3 : p.lr2d = false)
    (heps : ∀ K : Fin 3 → ℝ, 4 / 3 * ∑ x, K x ^ 2 ≤ ∑ x, ∑ y, K x * p.eps x y * K y) (Gmax : ℝ) (G2d : Bool) : Complete p Gmax G2d := by
  obtain ⟨-, h0, h1, h2⟩ := hexagonal_products p hp hx
  refine C80_screened p hp (fun i K => ?_) Gmax G2d
  have hk : keK p K = ∑ x, ∑ y, K x * p.eps x y * K y := by
    unfold keK
    rw [h3]
    rfl
  rw [hk]
  have hK : (0 : ℝ) ≤ ∑ x, K x ^ 2 := Finset.sum_nonneg fun x _ => sq_nonneg _
  have h := heps K
  fin_cases i
  · exact h0 ▸ h
  · exact h1 ▸ h
  · refine le_trans ?_ h
    show (norm3 (p.a 2) * norm3 (p.b 2)) ^ 2 * _ ≤ _
    rw [h2]
    linarith

/-- C80: for hexagonal cells with the default parameters, no vector is missed, also in two dimensions and for weak screening. -/
theorem C80_hexagonal (p : Polar n) (hp : Dual p) (hx : Hexagonal p.a) (hα : p.alpha = 1)
    (heps : ∀ K : Fin 3 → ℝ, ∑ x, K x ^ 2 ≤ ∑ x, ∑ y, K x * p.eps x y * K y) (G2d : Bool) : Complete p 28 G2d := by
  obtain ⟨ha, h0, h1, h2⟩ := hexagonal_products p hp hx
  have hpi := Real.pi_pos
  have hs : Real.sqrt (scale p * 28) = Real.sqrt 112 * (2 * Real.pi / norm3 (p.a 0)) := by
    unfold scale
    rw [hα, show 4 * 1 * (2 * Real.pi / norm3 (p.a 0)) ^ 2 * 28 = 112 * (2 * Real.pi / norm3 (p.a 0)) ^ 2 by ring, Real.sqrt_mul (by norm_num),
      Real.sqrt_sq (by positivity)]
  have ha1 : norm3 (p.a 1) = norm3 (p.a 0) := by
    have h3 : norm3 (p.a 1) ^ 2 = norm3 (p.a 0) ^ 2 := by rw [norm3_sq, norm3_sq, hx.same]
    exact (sq_eq_sq₀ (norm3_nonneg _) (norm3_nonneg _)).1 h3
  have hup : Real.sqrt 112 ≤ 11 := by
    rw [Real.sqrt_le_left (by norm_num)]
    norm_num
  have key : ∀ b : Fin 3 → ℝ, (norm3 (p.a 0) * norm3 b) ^ 2 = 4 / 3 → norm3 (p.a 0) * norm3 b / 1 * (Real.sqrt (scale p * 28) / norm3 fun x => 2 * Real.pi * b x) ≤
      Nat.floor (Real.sqrt (scale p * 28) / norm3 fun x => 2 * Real.pi * b x) + 2 := by
    intro b hb
    have hc : 0 < norm3 (p.a 0) * norm3 b := by
      rcases (mul_nonneg (norm3_nonneg (p.a 0)) (norm3_nonneg b)).lt_or_eq with h | h
      · exact h
      · rw [← h] at hb
        norm_num at hb
    have hb0 : 0 < norm3 b := (mul_pos_iff_of_pos_left ha).1 hc
    rw [norm3_smul _ (by positivity), hs]
    have h3 : Real.sqrt 112 * (2 * Real.pi / norm3 (p.a 0)) / (2 * Real.pi * norm3 b) = Real.sqrt 112 / (norm3 (p.a 0) * norm3 b) := by
      field_simp
    rw [h3]
    have h4 : (9 : ℝ) ≤ Real.sqrt 112 / (norm3 (p.a 0) * norm3 b) := by
      rw [le_div_iff₀ hc]
      refine Real.le_sqrt_of_sq_le ?_
      rw [mul_pow, hb]
      norm_num
    have h5 : (9 : ℝ) ≤ Nat.floor (Real.sqrt 112 / (norm3 (p.a 0) * norm3 b)) := by
      exact_mod_cast Nat.le_floor (by exact_mod_cast h4)
    have h6 : norm3 (p.a 0) * norm3 b / 1 * (Real.sqrt 112 / (norm3 (p.a 0) * norm3 b)) = Real.sqrt 112 := by
      field_simp
    rw [h6]
    linarith
  refine C80_criterion p hp 1 one_pos (fun K => ?_) 28 G2d fun i => ?_
  · rw [one_pow, one_mul]
    unfold keK
    split
    · exact le_rfl
    · exact heps K
  · fin_cases i
    · exact key _ h0
    · have h3 := key (p.b 1) (by rw [← ha1]; exact h1)
      rw [← ha1] at h3
      exact h3
    · have h3 : norm3 (p.a 2) * norm3 (p.b 2) = 1 := by
        have h4 := one_le_product p hp 2
        nlinarith
      show norm3 (p.a 2) * norm3 (p.b 2) / 1 * (Real.sqrt (scale p * 28) / norm3 fun x => 2 * Real.pi * p.b 2 x) ≤
        Nat.floor (Real.sqrt (scale p * 28) / norm3 fun x => 2 * Real.pi * p.b 2 x) + 2
      rw [h3, div_one, one_mul]
      have h4 := (Nat.lt_floor_add_one (Real.sqrt (scale p * 28) / norm3 fun x => 2 * Real.pi * p.b 2 x)).le
      linarith

/-- Specification: primitive cell of the face-centered (angles of 60 degrees) or body-centered (cosine of angles is minus one third) cubic lattice. -/
structure Cubic (a : Fin 3 → Fin 3 → ℝ) : Prop where
  same1 : dot3 (a 1) (a 1) = dot3 (a 0) (a 0)
  same2 : dot3 (a 2) (a 2) = dot3 (a 0) (a 0)
  angle01 : dot3 (a 0) (a 1) = dot3 (a 0) (a 0) / 2 ∨ dot3 (a 0) (a 1) = -(dot3 (a 0) (a 0) / 3)
  angle02 : dot3 (a 0) (a 2) = dot3 (a 0) (a 1)
  angle12 : dot3 (a 1) (a 2) = dot3 (a 0) (a 1)

theorem norm_pos (p : Polar n) (hp : Dual p) (i : Fin 3) : 0 < norm3 (p.a i) := by
  have h1 := one_le_product p hp i
  rcases (norm3_nonneg (p.a i)).lt_or_eq with h | h
  · exact h
  · rw [← h, zero_mul] at h1
    linarith

theorem cubic_products (p : Polar n) (hp : Dual p) (hx : Cubic p.a) (i : Fin 3) : (norm3 (p.a i) * norm3 (p.b i)) ^ 2 = 3 / 2 := by
  have hl : 0 < dot3 (p.a 0) (p.a 0) := by
    rw [← norm3_sq]
    have := norm_pos p hp 0
    positivity
  have hb := gram p hp
  have c01 := hx.angle01
  have e2 := dot3_comm (p.a 1) (p.a 0)
  have e3 := dot3_comm (p.a 2) (p.a 0)
  have e4 := dot3_comm (p.a 2) (p.a 1)
  rw [hx.angle02] at e3
  rw [hx.angle12] at e4
  have eqs : ∀ j, (if (0 : Fin 3) = j then 1 else 0) = dot3 (p.a 0) (p.a 0) * dot3 (p.b 0) (p.b j) + dot3 (p.a 0) (p.a 1) * dot3 (p.b 1) (p.b j) +
        dot3 (p.a 0) (p.a 1) * dot3 (p.b 2) (p.b j) ∧ (if (1 : Fin 3) = j then 1 else 0) = dot3 (p.a 0) (p.a 1) * dot3 (p.b 0) (p.b j) +
        dot3 (p.a 0) (p.a 0) * dot3 (p.b 1) (p.b j) + dot3 (p.a 0) (p.a 1) * dot3 (p.b 2) (p.b j) ∧ (if (2 : Fin 3) = j then 1 else 0) =
        dot3 (p.a 0) (p.a 1) * dot3 (p.b 0) (p.b j) + dot3 (p.a 0) (p.a 1) * dot3 (p.b 1) (p.b j) + dot3 (p.a 0) (p.a 0) * dot3 (p.b 2) (p.b j) := by
    intro j
    have f0 := hb 0 j
    have f1 := hb 1 j
    have f2 := hb 2 j
    rw [hp, hx.angle02] at f0
    rw [hp, e2, hx.same1, hx.angle12] at f1
    rw [hp, e3, e4, hx.same2] at f2
    exact ⟨f0, f1, f2⟩
  have hn : dot3 (p.a i) (p.a i) = dot3 (p.a 0) (p.a 0) := by
    fin_cases i
    · rfl
    · exact hx.same1
    · exact hx.same2
  rw [mul_pow, norm3_sq, norm3_sq, hn]
  obtain ⟨f0, f1, f2⟩ := eqs i
  generalize dot3 (p.a 0) (p.a 0) = l at *
  generalize dot3 (p.a 0) (p.a 1) = s at *
  have hls : l - s ≠ 0 := by
    rcases c01 with h | h <;> rw [h] <;> intro h' <;> linarith
  have hcase : ∀ u v w : ℝ, 1 = l * u + s * v + s * w → 0 = s * u + l * v + s * w → 0 = s * u + s * v + l * w → l * u = 3 / 2 := by
    intro u v w g0 g1 g2
    rcases c01 with h | h
    · subst h
      linarith
    · subst h
      linarith
  fin_cases i
  · simp only [Fin.zero_eta, Fin.isValue, if_true, one_ne_zero, if_false, Fin.reduceEq] at f0 f1 f2
    exact hcase _ _ _ f0 f1 f2
  · simp only [Fin.mk_one, Fin.isValue, if_true, zero_ne_one, if_false, Fin.reduceEq] at f0 f1 f2
    exact hcase (dot3 (p.b 1) (p.b 1)) (dot3 (p.b 0) (p.b 1)) (dot3 (p.b 2) (p.b 1)) (by linarith) (by linarith) (by linarith)
  · simp only [Fin.reduceFinMk, Fin.isValue, if_true, if_false, Fin.reduceEq] at f0 f1 f2
    exact hcase (dot3 (p.b 2) (p.b 2)) (dot3 (p.b 0) (p.b 2)) (dot3 (p.b 1) (p.b 2)) (by linarith) (by linarith) (by linarith)

/-- C80: for primitive cells of cubic lattices, no vector is missed if dielectric constants are at least 3 / 2. -/
theorem C80_cubic_screened (p : Polar n) (hp : Dual p) (hx : Cubic p.a) (h3 : p.lr2d = false)
    (heps : ∀ K : Fin 3 → ℝ, 3 / 2 * ∑ x, K x ^ 2 ≤ ∑ x, ∑ y, K x * p.eps x y * K y) (Gmax : ℝ) (G2d : Bool) : Complete p Gmax G2d := by
  refine C80_screened p hp (fun i K => ?_) Gmax G2d
  rw [cubic_products p hp hx i]
  unfold keK
  rw [h3]
  exact heps K

/-! ### Supercells -/

section

variable {s : Supercell} {k1 k2 k3 : Int}

theorem superA_multiples (hD : detSpec (k1, 0, 0) (0, k2, 0) (0, 0, k3) ≠ 0) (hs : Verif.Lattice.supercell (k1, 0, 0) (0, k2, 0) (0, 0, k3) = some s)
    (a : Fin 3 → Fin 3 → ℝ) (i : Fin 3) : superA s a i = fun x => (![(k1 : ℝ), k2, k3] i) * a i x := by
  obtain ⟨e1, e2, e3, _⟩ := Super.supercell_spec hD hs
  funext x
  unfold superA
  rw [e1, e2, e3]
  fin_cases i <;> simp

theorem multiples_ne (hD : detSpec (k1, 0, 0) (0, k2, 0) (0, 0, k3) ≠ 0) (i : Fin 3) : (![(k1 : ℝ), k2, k3] i) ≠ 0 := by
  have h : k1 ≠ 0 ∧ k2 ≠ 0 ∧ k3 ≠ 0 := by
    unfold detSpec at hD
    simp at hD
    tauto
  obtain ⟨h1, h2, h3⟩ := h
  fin_cases i <;> simp [h1, h2, h3]

theorem superB_multiples (hD : detSpec (k1, 0, 0) (0, k2, 0) (0, 0, k3) ≠ 0) (hs : Verif.Lattice.supercell (k1, 0, 0) (0, k2, 0) (0, 0, k3) = some s)
    (p : Polar n) (hp : Dual p) (i : Fin 3) : (superPolar s p).b i = fun x => (![(k1 : ℝ), k2, k3] i)⁻¹ * p.b i x := by
  have h1 : Dual { superPolar s p with b := fun i x => (![(k1 : ℝ), k2, k3] i)⁻¹ * p.b i x } := by
    intro i j
    show dot3 (superA s p.a i) (fun x => (![(k1 : ℝ), k2, k3] j)⁻¹ * p.b j x) = _
    rw [superA_multiples hD hs]
    have h2 : dot3 (fun x => (![(k1 : ℝ), k2, k3] i) * p.a i x) (fun x => (![(k1 : ℝ), k2, k3] j)⁻¹ * p.b j x) =
        (![(k1 : ℝ), k2, k3] i) * (![(k1 : ℝ), k2, k3] j)⁻¹ * dot3 (p.a i) (p.b j) := by
      unfold dot3
      rw [Finset.mul_sum]
      exact Finset.sum_congr rfl fun x _ => by ring
    rw [h2, hp]
    by_cases hij : i = j
    · subst hij
      rw [if_pos rfl, mul_one, mul_inv_cancel₀ (multiples_ne hD i)]
    · rw [if_neg hij, mul_zero]
  have h2 := recip_eq _ h1
  exact congrFun h2 i

theorem norm3_scale (c : ℝ) (v : Fin 3 → ℝ) : norm3 (fun x => c * v x) = |c| * norm3 v := by
  unfold norm3
  simp only [mul_pow, ← Finset.mul_sum]
  rw [Real.sqrt_mul (sq_nonneg c), Real.sqrt_sq_eq_abs]

theorem screened_super (hD : detSpec (k1, 0, 0) (0, k2, 0) (0, 0, k3) ≠ 0) (hs : Verif.Lattice.supercell (k1, 0, 0) (0, k2, 0) (0, 0, k3) = some s)
    (p : Polar n) (hp : Dual p) (h : Screened p) : Screened (superPolar s p) := by
  intro i K
  have h1 : norm3 ((superPolar s p).a i) * norm3 ((superPolar s p).b i) = norm3 (p.a i) * norm3 (p.b i) := by
    show norm3 (superA s p.a i) * _ = _
    rw [superA_multiples hD hs, superB_multiples hD hs p hp, norm3_scale, norm3_scale, abs_inv]
    have h2 : |(![(k1 : ℝ), k2, k3] i)| ≠ 0 := abs_ne_zero.2 (multiples_ne hD i)
    field_simp
  rw [h1]
  exact h i K

/-- **C157** If the medium is polarizable enough (see `Screened`), folding is exact for skewed cells and multiples of primitive vectors. -/
theorem C157_screened (h1 : k1 ≠ 0) (h2 : k2 ≠ 0) (h3 : k3 ≠ 0) (hs : Verif.Lattice.supercell (k1, 0, 0) (0, k2, 0) (0, 0, k3) = some s) (p : Polar n)
    (hp : Dual p) (hsc : Screened p) (Gmax : ℝ) (G2d : Bool) (h4 : p.lr2d = true ∨ G2d = true → k3 = 1) (q : Fin 3 → ℝ) (i : Fin s.cells.length)
    (a b : Fin n) (x y : Fin 3) :
    ∑ j : Fin s.cells.length, phase (s.cells.getD j (0, 0, 0)) q *
        Dlr (superPolar s p) Gmax G2d (fun x => ![k1 * q 0, k2 * q 1, k3 * q 2] x) (at' i a, x) (at' j b, y) =
      phase (s.cells.getD i (0, 0, 0)) q * Dlr p Gmax G2d q (a, x) (b, y) := by
  have hD : detSpec (k1, 0, 0) (0, k2, 0) (0, 0, k3) ≠ 0 := by
    unfold detSpec
    simp [h1, h2, h3]
  have h7 := Super.C157_folding hD hs p hp (C80_screened p hp hsc Gmax G2d)
    (C80_screened (superPolar s p) (Super.super_dual hD hs p hp) (screened_super hD hs p hp hsc) Gmax G2d)
    (fun h => by rw [h4 h]; exact ⟨rfl, rfl, rfl⟩) q i a b x y
  have h8 : superK (k1, 0, 0) (0, k2, 0) (0, 0, k3) q = fun x => ![k1 * q 0, k2 * q 1, k3 * q 2] x := by
    funext t
    unfold Verif.TB.superK
    fin_cases t <;> simp
  rw [h8] at h7
  exact h7

/-- C80: for two-dimensional hexagonal crystals, vectors below the cutoff are missed already in the supercell of two times two unit cells. -/
theorem C80_hexagonal_violated (hs : Verif.Lattice.supercell (2, 0, 0) (0, 2, 0) (0, 0, 1) = some s) (p : Polar n) (hp : Dual p) (hx : Hexagonal p.a)
    (hα : p.alpha = 1) (h2 : p.lr2d = true) : ¬Complete (superPolar s p) 28 false := by
  have hD : detSpec (2, 0, 0) (0, 2, 0) (0, 0, 1) ≠ 0 := by decide
  have hP := Super.super_dual hD hs p hp
  have hdot : ∀ i j, dot3 ((superPolar s p).a i) ((superPolar s p).a j) = (![(2 : ℝ), 2, 1] i) * (![(2 : ℝ), 2, 1] j) * dot3 (p.a i) (p.a j) := by
    intro i j
    show dot3 (superA s p.a i) (superA s p.a j) = _
    rw [superA_multiples hD hs, superA_multiples hD hs]
    unfold dot3
    rw [Finset.mul_sum]
    refine Finset.sum_congr rfl fun x _ => ?_
    push_cast
    ring
  have hX : Hexagonal (superPolar s p).a := by
    constructor
    · rw [hdot, hdot, hx.same]
      simp
    · rw [hdot, hdot]
      rcases hx.angle with h | h
      · left
        rw [h]
        simp
        ring
      · right
        rw [h]
        simp
        ring
    · rw [hdot, hx.perp0, mul_zero]
    · rw [hdot, hx.perp1, mul_zero]
  obtain ⟨ha, hc, -, -⟩ := hexagonal_products _ hP hX
  have hα' : (superPolar s p).alpha = 4 := by
    show p.alpha * (norm3 (superA s p.a 0) / norm3 (p.a 0)) ^ 2 = 4
    have ha0 := norm_pos p hp 0
    rw [superA_multiples hD hs, norm3_scale, hα]
    simp
    rw [mul_div_assoc, div_self ha0.ne']
    norm_num
  generalize hPdef : superPolar s p = P at *
  have hlr : P.lr2d = true := by
    rw [← hPdef]
    exact h2
  clear hPdef hdot
  have hpi := Real.pi_pos
  have hsc : scale P * 28 = 448 * (2 * Real.pi / norm3 (P.a 0)) ^ 2 := by
    unfold scale
    rw [hα']
    ring
  have hc0 : 0 < norm3 (P.a 0) * norm3 (P.b 0) := lt_of_lt_of_le one_pos (one_le_product P hP 0)
  have hb0 : 0 < norm3 (P.b 0) := (mul_pos_iff_of_pos_left ha).1 hc0
  have hnr : nr P 28 false 0 ≤ 19 := by
    unfold nr
    rw [if_neg (by simp), hsc, Real.sqrt_mul (by norm_num), Real.sqrt_sq (by positivity), norm3_smul _ (by positivity)]
    have h3 : Real.sqrt 448 * (2 * Real.pi / norm3 (P.a 0)) / (2 * Real.pi * norm3 (P.b 0)) = Real.sqrt 448 / (norm3 (P.a 0) * norm3 (P.b 0)) := by
      field_simp
    rw [h3]
    have h4 : Real.sqrt 448 / (norm3 (P.a 0) * norm3 (P.b 0)) < 19 := by
      rw [div_lt_iff₀ hc0]
      rw [Real.sqrt_lt' (by positivity), mul_pow, hc]
      norm_num
    have h5 : Nat.floor (Real.sqrt 448 / (norm3 (P.a 0) * norm3 (P.b 0))) < 19 := by
      rw [Nat.floor_lt (by positivity)]
      exact_mod_cast h4
    omega
  have hl : dot3 (P.a 0) (P.a 0) = norm3 (P.a 0) ^ 2 := (norm3_sq _).symm
  have main : ∀ t : Int, (dot3 (P.a 0) (P.a 1) = t / 2 * dot3 (P.a 0) (P.a 0)) → ¬Complete P 28 false := by
    intro t ht hcomp
    have hG : gVec P (20, 10 * t, 0) = fun x => (40 * Real.pi / norm3 (P.a 0) ^ 2) * P.a 0 x := by
      have h3 := Super.dot_lin hP (P.a 0)
      funext x
      have h4 := congrFun h3 x
      unfold Super.lin at h4
      simp only at h4
      rw [ht, hX.perp0, hl] at h4
      rw [← h4]
      unfold gVec
      push_cast
      field_simp
      ring
    have h5 := hcomp (20, 10 * t, 0) (fun _ => rfl) (by
      rw [hsc, hG]
      unfold keK
      rw [hlr, if_pos rfl]
      have h6 : ∑ x, ((40 * Real.pi / norm3 (P.a 0) ^ 2) * P.a 0 x) ^ 2 = (40 * Real.pi / norm3 (P.a 0) ^ 2) ^ 2 * norm3 (P.a 0) ^ 2 := by
        rw [norm3_sq]
        unfold dot3
        rw [Finset.mul_sum]
        exact Finset.sum_congr rfl fun x _ => by ring
      rw [h6]
      have h7 : (40 * Real.pi / norm3 (P.a 0) ^ 2) ^ 2 * norm3 (P.a 0) ^ 2 = 400 * (2 * Real.pi / norm3 (P.a 0)) ^ 2 := by
        field_simp
        ring
      rw [h7]
      have h8 : 0 < (2 * Real.pi / norm3 (P.a 0)) ^ 2 := by positivity
      linarith)
    unfold gList at h5
    rw [List.mem_map] at h5
    obtain ⟨m, hm, he⟩ := h5
    have := Super.gVec_inj hP he
    subst this
    rw [List.mem_filter, mem_box] at hm
    have h6 := hm.1.1.2
    simp only at h6
    omega
  rcases hX.angle with h | h
  · exact main 1 (by rw [h]; push_cast; ring)
  · exact main (-1) (by rw [h]; push_cast; ring)

end

/-- C80: for the primitive cell of the face-centered cubic lattice with default parameters, a vector below the cutoff is missed if the dielectric constant
is less than 28 / 25. -/
theorem C80_cubic_violated (p : Polar n) (hp : Dual p) (hx : Cubic p.a) (h60 : dot3 (p.a 0) (p.a 1) = dot3 (p.a 0) (p.a 0) / 2) (hα : p.alpha = 1)
    (h3 : p.lr2d = false) (heps : ∑ x, ∑ y, p.a 0 x * p.eps x y * p.a 0 y < 28 / 25 * ∑ x, p.a 0 x ^ 2) : ¬Complete p 28 false := by
  intro hcomp
  have hpi := Real.pi_pos
  have ha := norm_pos p hp 0
  have hsc : scale p * 28 = 112 * (2 * Real.pi / norm3 (p.a 0)) ^ 2 := by
    unfold scale
    rw [hα]
    ring
  have hc := cubic_products p hp hx 0
  have hc0 : 0 < norm3 (p.a 0) * norm3 (p.b 0) := lt_of_lt_of_le one_pos (one_le_product p hp 0)
  have hb0 : 0 < norm3 (p.b 0) := (mul_pos_iff_of_pos_left ha).1 hc0
  have hl : dot3 (p.a 0) (p.a 0) = norm3 (p.a 0) ^ 2 := (norm3_sq _).symm
  have hnr : nr p 28 false 0 ≤ 9 := by
    unfold nr
    rw [if_neg (by simp), hsc, Real.sqrt_mul (by norm_num), Real.sqrt_sq (by positivity), norm3_smul _ (by positivity)]
    have h3 : Real.sqrt 112 * (2 * Real.pi / norm3 (p.a 0)) / (2 * Real.pi * norm3 (p.b 0)) = Real.sqrt 112 / (norm3 (p.a 0) * norm3 (p.b 0)) := by
      field_simp
    rw [h3]
    have h4 : Real.sqrt 112 / (norm3 (p.a 0) * norm3 (p.b 0)) < 9 := by
      rw [div_lt_iff₀ hc0, Real.sqrt_lt' (by positivity), mul_pow, hc]
      norm_num
    have h5 : Nat.floor (Real.sqrt 112 / (norm3 (p.a 0) * norm3 (p.b 0))) < 9 := by
      rw [Nat.floor_lt (by positivity)]
      exact_mod_cast h4
    omega
  have hG : gVec p (10, 5, 5) = fun x => (20 * Real.pi / norm3 (p.a 0) ^ 2) * p.a 0 x := by
    have h3 := Super.dot_lin hp (p.a 0)
    funext x
    have h4 := congrFun h3 x
    unfold Super.lin at h4
    simp only at h4
    rw [hx.angle02, h60, hl] at h4
    rw [← h4]
    unfold gVec
    push_cast
    field_simp
    ring
  have h5 := hcomp (10, 5, 5) (fun h => by simp [h3] at h) (by
    rw [hsc, hG]
    unfold keK
    rw [h3, if_neg (by simp)]
    have h6 : ∑ x, ∑ y, (20 * Real.pi / norm3 (p.a 0) ^ 2) * p.a 0 x * p.eps x y * ((20 * Real.pi / norm3 (p.a 0) ^ 2) * p.a 0 y) =
        (20 * Real.pi / norm3 (p.a 0) ^ 2) ^ 2 * ∑ x, ∑ y, p.a 0 x * p.eps x y * p.a 0 y := by
      rw [Finset.mul_sum]
      refine Finset.sum_congr rfl fun x _ => ?_
      rw [Finset.mul_sum]
      exact Finset.sum_congr rfl fun y _ => by ring
    rw [h6]
    have h7 : ∑ x, p.a 0 x ^ 2 = norm3 (p.a 0) ^ 2 := by
      rw [norm3_sq]
      exact Finset.sum_congr rfl fun x _ => by ring
    rw [h7] at heps
    calc _ < (20 * Real.pi / norm3 (p.a 0) ^ 2) ^ 2 * (28 / 25 * norm3 (p.a 0) ^ 2) := mul_lt_mul_of_pos_left heps (by positivity)
      _ = 112 * (2 * Real.pi / norm3 (p.a 0)) ^ 2 := by
        field_simp
        ring)
  unfold gList at h5
  rw [List.mem_map] at h5
  obtain ⟨m, hm, he⟩ := h5
  have := Super.gVec_inj hp he
  subst this
  rw [List.mem_filter, mem_box] at hm
  have h6 := hm.1.1.2
  simp only at h6
  omega

/-! ### Sequences of changes of the cell -/

theorem screened_call (c : Call) (cs : List Call) (m m' : PModel) (hm : Prepared m) (ha : Allowed m.nat (c :: cs)) (hsc : m.lr ≠ none → Screened m.p)
    (hd : Diagonal m.p.lr2d c) (h : call c m = some m') : (m'.lr ≠ none → Screened m'.p) ∧ m'.p.lr2d = m.p.lr2d := by
  cases c with
  | standardize =>
    cases h
    exact ⟨hsc, rfl⟩
  | shift s S =>
    cases h
    exact ⟨hsc, rfl⟩
  | order o =>
    obtain ⟨f, hf⟩ := orderP_some o m ha.1
    have h1 : orderP o m = some m' := h
    rw [hf] at h1
    cases h1
    obtain ⟨nat, data, p, lr⟩ := m
    cases lr with
    | none => exact ⟨fun h => absurd rfl h, rfl⟩
    | some l =>
      refine ⟨fun _ => ?_, rfl⟩
      have h2 : Screened p := hsc (by simp)
      obtain ⟨h3, -⟩ := hm.2 (by simp)
      have h4 : p.b = recip p.a := h3
      intro i K
      have h5 := h2 i K
      rw [h4] at h5
      exact h5
  | supercell N1 N2 N3 =>
    obtain ⟨s, hs, -⟩ := Verif.Lattice.C17_supercell N1 N2 N3 ha.1
    obtain ⟨k1, k2, k3, rfl, rfl, rfl, -⟩ := hd
    have h1 : supercellP _ _ _ m = some m' := h
    unfold supercellP at h1
    rw [hs, Option.bind_some, Option.map_eq_some_iff] at h1
    obtain ⟨d, -, rfl⟩ := h1
    refine ⟨fun h2 => ?_, rfl⟩
    have hlr : m.lr ≠ none := by
      intro h3
      simp [h3] at h2
    obtain ⟨h3, h4, -⟩ := hm.2 hlr
    exact screened_super ha.1 hs m.p (dual_of m.p h3 h4) (hsc hlr)

/-- **C164** For skewed primitive vectors and multiples of them, nothing else has to be assumed if the medium is polarizable enough. -/
theorem C164_screened (cs : List Call) (m : PModel) (hm : Prepared m) (ha : Allowed m.nat cs) (hsc : m.lr ≠ none → Screened m.p)
    (hd : ∀ c ∈ cs, Diagonal m.p.lr2d c) : Fine cs m := by
  induction cs generalizing m with
  | nil => trivial
  | cons c cs ih =>
    have h1 : FineCall c m := by
      cases c with
      | supercell N1 N2 N3 =>
        obtain ⟨k1, k2, k3, rfl, rfl, rfl, h⟩ := hd _ List.mem_cons_self
        intro hlr
        obtain ⟨h1, h2, -⟩ := hm.2 hlr
        have hp := dual_of m.p h1 h2
        refine ⟨fun h3 => ?_, C80_screened m.p hp (hsc hlr) 28 false, fun s hs => ?_⟩
        · rw [h h3]
          exact ⟨rfl, rfl, rfl⟩
        · exact C80_screened (superPolar s m.p) (Super.super_dual ha.1 hs m.p hp) (screened_super ha.1 hs m.p hp (hsc hlr)) 28 false
      | _ => trivial
    refine ⟨h1, fun m' hm' => ?_⟩
    obtain ⟨m1, h2, h3, h4, -⟩ := call_spec c cs m hm ha h1
    rw [h2] at hm'
    obtain rfl := Option.some.inj hm'
    obtain ⟨h5, h6⟩ := screened_call c cs m m1 hm ha hsc (hd c (by simp)) h2
    exact ih m1 h3 h4 h5 fun c hc => by
      rw [h6]
      exact hd c (by simp [hc])

/-! ### Examples -/

/-- Hexagonal boron nitride: two atoms with opposite charges. -/
noncomputable def hexExample (lr2d : Bool) (e : ℝ) : Polar 2 where
  a := ![![1, 0, 0], ![1 / 2, Real.sqrt 3 / 2, 0], ![0, 0, 3]]
  b := ![![1, -(1 / Real.sqrt 3), 0], ![0, 2 / Real.sqrt 3, 0], ![0, 0, 1 / 3]]
  r := ![![0, 0, 0], ![1 / 2, 1 / (2 * Real.sqrt 3), 0]]
  eps := fun x y => if x = y then e else 0
  Z := fun a x y => if x = y then (if a = 0 then 1 else -1) else 0
  Q := none
  M := ![2, 3]
  lr2d := lr2d
  L := none
  perp := true
  divideMass := true
  alpha := 1

theorem hexExample_dual (b : Bool) (e : ℝ) : Dual (hexExample b e) := by
  have h : Real.sqrt 3 ≠ 0 := by positivity
  intro i j
  unfold dot3
  rw [Fin.sum_univ_three]
  fin_cases i <;> fin_cases j <;> simp [hexExample] <;> field_simp <;> norm_num

theorem hexExample_hexagonal (b : Bool) (e : ℝ) : Hexagonal (hexExample b e).a := by
  have h : Real.sqrt 3 ^ 2 = 3 := Real.sq_sqrt (by norm_num)
  constructor
  · simp [dot3, Fin.sum_univ_three, hexExample]
    nlinarith
  · left
    simp [dot3, Fin.sum_univ_three, hexExample]
  · simp [dot3, Fin.sum_univ_three, hexExample]
  · simp [dot3, Fin.sum_univ_three, hexExample]

theorem hexExample_eps (b : Bool) (e : ℝ) (K : Fin 3 → ℝ) : ∑ x, ∑ y, K x * (hexExample b e).eps x y * K y = e * ∑ x, K x ^ 2 := by
  simp [Fin.sum_univ_three, hexExample]
  ring

example := C80_hexagonal (hexExample true 1) (hexExample_dual _ _) (hexExample_hexagonal _ _) rfl (fun K => by rw [hexExample_eps, one_mul]) false

example := C80_hexagonal_screened (hexExample false 5) (hexExample_dual _ _) (hexExample_hexagonal _ _) rfl (fun K => by
  rw [hexExample_eps]
  have : (0 : ℝ) ≤ ∑ x, K x ^ 2 := Finset.sum_nonneg fun x _ => sq_nonneg _
  linarith) 100 false

example (s : Supercell) (hs : Verif.Lattice.supercell (2, 0, 0) (0, 2, 0) (0, 0, 1) = some s) :=
  C80_hexagonal_violated hs (hexExample true 1) (hexExample_dual _ _) (hexExample_hexagonal _ _) rfl rfl

theorem hexExample_screened : Screened (hexExample false 5) := by
  obtain ⟨-, h0, h1, h2⟩ := hexagonal_products _ (hexExample_dual false 5) (hexExample_hexagonal false 5)
  intro i K
  have hk : keK (hexExample false 5) K = 5 * ∑ x, K x ^ 2 := hexExample_eps false 5 K
  have hK : (0 : ℝ) ≤ ∑ x, K x ^ 2 := Finset.sum_nonneg fun x _ => sq_nonneg _
  have hi : (norm3 ((hexExample false 5).a i) * norm3 ((hexExample false 5).b i)) ^ 2 ≤ 5 := by
    fin_cases i
    · exact h0.trans_le (by norm_num)
    · exact h1.trans_le (by norm_num)
    · exact h2.trans_le (by norm_num)
  rw [hk]
  exact mul_le_mul_of_nonneg_right hi hK

example (s : Supercell) (hs : Verif.Lattice.supercell (3, 0, 0) (0, 3, 0) (0, 0, 1) = some s) := C157_screened (k1 := 3) (k2 := 3) (k3 := 1) (by decide) (by decide)
  (by decide) hs (hexExample false 5) (hexExample_dual _ _) hexExample_screened 28 false (fun _ => rfl)

/-- A hexagonal model. -/
noncomputable def hexModel : PModel := prepare 28 false ⟨2, [((0, 0, 0), fun a b => if a = b then 2 else 0)], hexExample false 5, none⟩

theorem hexModel_p : hexModel.p = hexExample false 5 := setB_eq _ (recip_eq _ (hexExample_dual false 5)).symm

theorem hexModel_prepared : Prepared hexModel := by
  refine ⟨by decide, fun _ => ?_⟩
  have h := hexModel_p
  refine ⟨rfl, ?_, rfl⟩
  rw [h]
  exact Super.triple_ne (hexExample_dual false 5)

example := C164_modes [.supercell (3, 0, 0) (0, 3, 0) (0, 0, 1), .shift (fun i => i == 1) (1, 0, -2)] hexModel hexModel_prepared
  ⟨by decide, trivial⟩ (C164_screened _ _ hexModel_prepared ⟨by decide, trivial⟩ (fun _ => by rw [hexModel_p]; exact hexExample_screened) (by
    intro c hc
    simp only [List.mem_cons, List.not_mem_nil, or_false] at hc
    rcases hc with rfl | rfl
    · exact ⟨3, 3, 1, rfl, rfl, rfl, fun _ => rfl⟩
    · trivial))

/-- Rock salt. -/
noncomputable def fccExample (e : ℝ) : Polar 2 where
  a := ![![0, 1, 1], ![1, 0, 1], ![1, 1, 0]]
  b := ![![-1 / 2, 1 / 2, 1 / 2], ![1 / 2, -1 / 2, 1 / 2], ![1 / 2, 1 / 2, -1 / 2]]
  r := ![![0, 0, 0], ![1, 1, 1]]
  eps := fun x y => if x = y then e else 0
  Z := fun a x y => if x = y then (if a = 0 then 1 else -1) else 0
  Q := none
  M := ![2, 3]
  lr2d := false
  L := none
  perp := true
  divideMass := true
  alpha := 1

theorem fccExample_dual (e : ℝ) : Dual (fccExample e) := by
  intro i j
  unfold dot3
  rw [Fin.sum_univ_three]
  fin_cases i <;> fin_cases j <;> simp [fccExample] <;> norm_num

theorem fccExample_cubic (e : ℝ) : Cubic (fccExample e).a := by
  constructor <;> simp [dot3, Fin.sum_univ_three, fccExample] <;> norm_num

example := C80_cubic_screened (fccExample 2) (fccExample_dual 2) (fccExample_cubic 2) rfl (fun K => by
  have h : ∑ x, ∑ y, K x * (fccExample 2).eps x y * K y = 2 * ∑ x, K x ^ 2 := by
    simp [Fin.sum_univ_three, fccExample]
    ring
  have : (0 : ℝ) ≤ ∑ x, K x ^ 2 := Finset.sum_nonneg fun x _ => sq_nonneg _
  rw [h]
  linarith) 28 false

example := C80_cubic_violated (fccExample 1) (fccExample_dual 1) (fccExample_cubic 1) (by simp [dot3, Fin.sum_univ_three, fccExample]) rfl rfl
  (by simp [Fin.sum_univ_three, fccExample]; norm_num)

end Verif.Phon.Screened
