import Verif.Phon.LongRange
import Mathlib.Analysis.Real.Pi.Bounds

/-!
# Reciprocal lattice vectors of long-range terms (C80)
-/

namespace Verif.Phon

open Verif.Lattice (V3)

variable {n : Nat}

/-- Dot product. -/
def dot3 (u v : Fin 3 → ℝ) : ℝ := ∑ x, u x * v x

/-- C80: only reciprocal lattice vectors below the cutoff are used, in two dimensions only those in the plane. -/
theorem C80_sound (p : Polar n) (Gmax : ℝ) (G2d : Bool) (G : Fin 3 → ℝ) (h : G ∈ gList p Gmax G2d) :
    ∃ m : V3, G = (fun x => 2 * Real.pi * ((m.1 : ℝ) * p.b 0 x + (m.2.1 : ℝ) * p.b 1 x + (m.2.2 : ℝ) * p.b 2 x)) ∧
      (if p.lr2d then ∑ x, G x ^ 2 else ∑ x, ∑ y, G x * p.eps x y * G y) <
        4 * p.alpha * (2 * Real.pi / Real.sqrt (∑ x, p.a 0 x ^ 2)) ^ 2 * Gmax ∧
      ((p.lr2d = true ∨ G2d = true) → m.2.2 = 0) := by
  unfold gList at h
  rw [List.mem_map] at h
  obtain ⟨m, hm, rfl⟩ := h
  rw [List.mem_filter, mem_box] at hm
  obtain ⟨hm, hk⟩ := hm
  refine ⟨m, rfl, of_decide_eq_true hk, fun h2 => ?_⟩
  have : nr p Gmax G2d 2 = 0 := by
    unfold nr
    rw [if_pos]
    refine ⟨rfl, ?_⟩
    rcases h2 with h2 | h2 <;> simp [h2]
  rw [this] at hm
  have := hm.2.2
  simp only [Nat.cast_zero, neg_zero] at this
  omega

theorem norm3_nonneg (v : Fin 3 → ℝ) : 0 ≤ norm3 v := Real.sqrt_nonneg _

theorem norm3_smul (c : ℝ) (hc : 0 ≤ c) (v : Fin 3 → ℝ) : norm3 (fun x => c * v x) = c * norm3 v := by
  unfold norm3
  simp only [mul_pow, ← Finset.mul_sum]
  rw [Real.sqrt_mul (sq_nonneg c), Real.sqrt_sq hc]

theorem dot3_le (u v : Fin 3 → ℝ) : |dot3 u v| ≤ norm3 u * norm3 v := by
  unfold norm3 dot3
  rw [← Real.sqrt_mul (Finset.sum_nonneg fun x _ => sq_nonneg _)]
  apply Real.abs_le_sqrt
  exact Finset.sum_mul_sq_le_sq_mul_sq _ _ _

/-- C80 (missing: cells that are not orthogonal, see `C80_complete_violated`): no reciprocal lattice vector below the
cutoff is missed if the product of the lengths of primitive vector and reciprocal vector is one for each axis. -/
theorem C80_complete_partial (p : Polar n) (hab : ∀ i j, dot3 (p.a i) (p.b j) = if i = j then 1 else 0)
    (horth : ∀ i, norm3 (p.a i) * norm3 (p.b i) ≤ 1)
    (heps : ∀ K : Fin 3 → ℝ, ∑ x, K x ^ 2 ≤ ∑ x, ∑ y, K x * p.eps x y * K y) (Gmax : ℝ) (G2d : Bool) (m : V3)
    (h2 : p.lr2d = true ∨ G2d = true → m.2.2 = 0)
    (hm : keK p (fun x => 2 * Real.pi * ((m.1 : ℝ) * p.b 0 x + (m.2.1 : ℝ) * p.b 1 x + (m.2.2 : ℝ) * p.b 2 x)) <
      scale p * Gmax) :
    (fun x => 2 * Real.pi * ((m.1 : ℝ) * p.b 0 x + (m.2.1 : ℝ) * p.b 1 x + (m.2.2 : ℝ) * p.b 2 x)) ∈
      gList p Gmax G2d := by
  have hG : norm3 (gVec p m) < Real.sqrt (scale p * Gmax) := by
    refine Real.sqrt_lt_sqrt (Finset.sum_nonneg fun x _ => sq_nonneg _) (lt_of_le_of_lt ?_ hm)
    unfold keK
    split
    · exact le_rfl
    · exact heps _
  have hdot : ∀ i, dot3 (p.a i) (gVec p m) = 2 * Real.pi * (![(m.1 : ℝ), (m.2.1 : ℝ), (m.2.2 : ℝ)] i) := by
    intro i
    have e : dot3 (p.a i) (gVec p m) = 2 * Real.pi * ((m.1 : ℝ) * dot3 (p.a i) (p.b 0) +
        (m.2.1 : ℝ) * dot3 (p.a i) (p.b 1) + (m.2.2 : ℝ) * dot3 (p.a i) (p.b 2)) := by
      unfold dot3 gVec
      simp only [Fin.sum_univ_three]
      ring
    rw [e, hab, hab, hab]
    fin_cases i <;> simp
  have hbound : ∀ i, ∀ z : Int, (z : ℝ) = (![(m.1 : ℝ), (m.2.1 : ℝ), (m.2.2 : ℝ)] i) →
      (z.natAbs : ℝ) ≤ Real.sqrt (scale p * Gmax) / norm3 fun x => 2 * Real.pi * p.b i x := by
    intro i z hz
    have hpi := Real.pi_pos
    have hb : 0 < norm3 (p.b i) := by
      rcases (norm3_nonneg (p.b i)).lt_or_eq with h | h
      · exact h
      · exfalso
        have := dot3_le (p.a i) (p.b i)
        rw [hab, if_pos rfl, ← h] at this
        simp at this
        linarith
    rw [norm3_smul _ (by positivity), le_div_iff₀ (by positivity)]
    have h3 : 2 * Real.pi * |(z : ℝ)| ≤ norm3 (p.a i) * norm3 (gVec p m) := by
      have := dot3_le (p.a i) (gVec p m)
      rw [hdot, ← hz, abs_mul, abs_of_pos (by positivity)] at this
      exact this
    have h4 : (z.natAbs : ℝ) = |(z : ℝ)| := by
      rw [Nat.cast_natAbs, Int.cast_abs]
    rw [h4]
    calc |(z : ℝ)| * (2 * Real.pi * norm3 (p.b i)) = 2 * Real.pi * |(z : ℝ)| * norm3 (p.b i) := by ring
      _ ≤ norm3 (p.a i) * norm3 (gVec p m) * norm3 (p.b i) := mul_le_mul_of_nonneg_right h3 hb.le
      _ = norm3 (p.a i) * norm3 (p.b i) * norm3 (gVec p m) := by ring
      _ ≤ 1 * norm3 (gVec p m) := mul_le_mul_of_nonneg_right (horth i) (norm3_nonneg _)
      _ ≤ Real.sqrt (scale p * Gmax) := by linarith
  have hnr : ∀ i, ∀ z : Int, (z : ℝ) = (![(m.1 : ℝ), (m.2.1 : ℝ), (m.2.2 : ℝ)] i) →
      (i = 2 ∧ (p.lr2d || G2d) = true → z = 0) → z.natAbs ≤ nr p Gmax G2d i := by
    intro i z hz h0
    unfold nr
    split
    · rename_i h
      rw [h0 h]
      simp
    · have := Nat.le_floor (hbound i z hz)
      omega
  unfold gList
  refine List.mem_map.2 ⟨m, ?_, rfl⟩
  rw [List.mem_filter, mem_box]
  refine ⟨?_, decide_eq_true hm⟩
  have h0 := hnr 0 m.1 rfl (by simp)
  have h1 := hnr 1 m.2.1 rfl (by simp)
  have h3 := hnr 2 m.2.2 rfl (fun h => h2 (by simpa using h.2))
  omega

/-- A square lattice with a skewed choice of the second primitive vector. -/
noncomputable def skewed : Polar 0 where
  a := ![![1, 0, 0], ![10, 1, 0], ![0, 0, 1]]
  b := ![![1, -10, 0], ![0, 1, 0], ![0, 0, 1]]
  r := Fin.elim0
  eps := fun x y => if x = y then 1 else 0
  Z := Fin.elim0
  Q := none
  M := Fin.elim0
  lr2d := false
  L := none
  perp := false
  divideMass := false
  alpha := 1

/-- C80: for skewed cells, reciprocal lattice vectors below the cutoff are missed, so that results depend on the choice of
the primitive vectors: here `(2 π, 0, 0)` is missing, `(0, 2 π, 0)` is not. -/
theorem C80_complete_violated : (∀ i j, dot3 (skewed.a i) (skewed.b j) = if i = j then 1 else 0) ∧
    (∀ K : Fin 3 → ℝ, ∑ x, K x ^ 2 ≤ ∑ x, ∑ y, K x * skewed.eps x y * K y) ∧
    ∃ m : V3, keK skewed (gVec skewed m) < scale skewed * 1 ∧ gVec skewed m ∉ gList skewed 1 false ∧
      gVec skewed m = ![2 * Real.pi, 0, 0] ∧ ![0, 2 * Real.pi, 0] ∈ gList skewed 1 false := by
  have hpi := Real.pi_pos
  have hscale : scale skewed * 1 = (4 * Real.pi) ^ 2 := by
    unfold scale norm3
    simp [skewed, Fin.sum_univ_three]
    ring
  have hke : ∀ K, keK skewed K = K 0 ^ 2 + K 1 ^ 2 + K 2 ^ 2 := by
    intro K
    unfold keK
    simp [skewed, Fin.sum_univ_three]
    ring
  have hb1 : nr skewed 1 false 1 = 3 := by
    unfold nr
    rw [hscale, Real.sqrt_sq (by positivity)]
    have : norm3 (fun x => 2 * Real.pi * skewed.b 1 x) = 2 * Real.pi := by
      rw [norm3_smul _ (by positivity)]
      unfold norm3
      simp [skewed, Fin.sum_univ_three]
    rw [this, show 4 * Real.pi / (2 * Real.pi) = ((2 : Nat) : ℝ) by push_cast; field_simp; norm_num, Nat.floor_natCast]
    simp
  have hG : ∀ m : V3, gVec skewed m = ![2 * Real.pi * m.1, 2 * Real.pi * (m.2.1 - 10 * m.1), 2 * Real.pi * m.2.2] := by
    intro m
    funext x
    unfold gVec
    fin_cases x <;> simp [skewed] <;> ring
  refine ⟨?_, ?_, (1, 10, 0), ?_, ?_, ?_, ?_⟩
  · intro i j
    unfold dot3
    fin_cases i <;> fin_cases j <;> simp [skewed, Fin.sum_univ_three]
  · intro K
    apply le_of_eq
    simp [skewed, Fin.sum_univ_three]
    ring
  · rw [hscale, hke, hG]
    simp
    nlinarith
  · intro h
    unfold gList at h
    rw [List.mem_map] at h
    obtain ⟨m, hm, he⟩ := h
    rw [List.mem_filter, mem_box, hb1] at hm
    rw [hG, hG] at he
    have e0 := congrFun he 0
    have e1 := congrFun he 1
    have h2pi : (2 * Real.pi) ≠ 0 := by positivity
    have e0' : (m.1 : ℝ) = ((1 : Int) : ℝ) := mul_left_cancel₀ h2pi e0
    have e1' : (m.2.1 : ℝ) - 10 * m.1 = ((10 : Int) : ℝ) - 10 * ((1 : Int) : ℝ) := mul_left_cancel₀ h2pi e1
    rw [e0'] at e1'
    have : (m.2.1 : ℝ) = ((10 : Int) : ℝ) := by linarith
    have : m.2.1 = 10 := by exact_mod_cast this
    have := hm.1.2.1.2
    simp at this
    omega
  · rw [hG]
    simp
  · unfold gList
    refine List.mem_map.2 ⟨(0, 1, 0), ?_, ?_⟩
    · rw [List.mem_filter, mem_box, hb1]
      refine ⟨by simp, decide_eq_true ?_⟩
      rw [hscale, hke, hG]
      simp
      nlinarith
    · rw [hG]
      simp

example : ∃ (a b : Fin 3 → Fin 3 → ℝ), (∀ i j, dot3 (a i) (b j) = if i = j then 1 else 0) ∧
    ∀ i, norm3 (a i) * norm3 (b i) ≤ 1 := by
  refine ⟨![![2, 0, 0], ![0, 4, 0], ![0, 0, 1]], ![![1 / 2, 0, 0], ![0, 1 / 4, 0], ![0, 0, 1]], ?_, ?_⟩
  · intro i j
    unfold dot3
    fin_cases i <;> fin_cases j <;> simp [Fin.sum_univ_three]
  · intro i
    unfold norm3
    fin_cases i <;> simp [Fin.sum_univ_three]

end Verif.Phon
