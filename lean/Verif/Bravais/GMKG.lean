import Verif.Bravais.Path
import Mathlib.Analysis.Real.Pi.Bounds

/-!
# Model of `GMKG` in `elphmod/bravais.py` 1685-1774 and `point_on_path`, 2564-2587

Exact arithmetic.
-/

namespace Verif.Bravais

open Verif.Diag (roundEven roundEven_near roundEven_int)

/-- `np.linspace`. -/
noncomputable def linspace (a b : ℝ) (n : Nat) (endpoint : Bool) : List ℝ :=
  (List.range n).map fun i : Nat => a + i * ((b - a) / (if endpoint then (n : ℝ) - 1 else n))

/-- `elphmod/bravais.py` 1751-1755: function `line`. -/
noncomputable def gmkgLine (k1 k2 : ℝ × ℝ) (n : Nat) (endpoint : Bool) : List (ℝ × ℝ) :=
  (linspace k1.1 k2.1 n endpoint).zip (linspace k1.2 k2.2 n endpoint)

/-- `elphmod/bravais.py` 1719-1737: points `K` and `k`. If `k = K` (not straight), both names refer to the same array, which is
scaled twice. -/
noncomputable def gmkgPoints (a60 straight lift : Bool) : (ℝ × ℝ) × (ℝ × ℝ) :=
  let K : ℝ × ℝ := if a60 then (2 * Real.pi * 1 / 3, 2 * Real.pi * 1 / 3) else (2 * Real.pi * 1 / 3, 2 * Real.pi * 2 / 3)
  let k : ℝ × ℝ := if a60 then (2 * Real.pi * (-2) / 3, 2 * Real.pi * 1 / 3) else (2 * Real.pi * (-2) / 3, 2 * Real.pi * (-1) / 3)
  let shrink : ℝ := 1 - 1 / 10 ^ 10
  if straight then
    if lift then (shrink • K, shrink • k) else (K, k)
  else
    if lift then (shrink • shrink • K, shrink • shrink • K) else (K, K)

/-- `elphmod/bravais.py` 1743-1750: numbers `N1`, `N2`, `N3`. -/
noncomputable def gmkgNumbers (N : Nat) (mesh : Bool) : Nat × Nat × Nat :=
  if mesh && N % 6 == 0 then (N / 2, N / 6, N / 3 + 1)
  else ((roundEven (N * (1 / √3))).toNat, (roundEven (N * (1 / 3))).toNat, (roundEven (N * (2 / 3))).toNat + 1)

/-- `elphmod/bravais.py` 1685-1774 (`GMKG` with `corner_indices`); `a60`: is the angle 60 degrees? -/
noncomputable def gmkg (N : Nat) (mesh a60 straight lift : Bool) : List (ℝ × ℝ) × List ℝ × List Nat :=
  let G : ℝ × ℝ := (0, 0)
  let M : ℝ × ℝ := (2 * Real.pi * 0 / 2, 2 * Real.pi * 1 / 2)
  let Kk := gmkgPoints a60 straight lift
  let L1 := 1 / √3
  let L2 : ℝ := 1 / 3
  let L3 : ℝ := 2 / 3
  let n := gmkgNumbers N mesh
  (gmkgLine G M n.1 false ++ gmkgLine M Kk.1 n.2.1 false ++ gmkgLine Kk.2 G n.2.2 true,
    linspace 0 L1 n.1 false ++ linspace L1 (L1 + L2) n.2.1 false ++ linspace (L2 + L1) (L1 + L2 + L3) n.2.2 true,
    [0, n.1, n.1 + n.2.1, n.1 + n.2.1 + n.2.2 - 1])

/-! ### Specification -/

/-- Length of a vector given by crystal coordinates with period `2π` for reciprocal vectors of length `2 / √3` (in units of
`2π / a`) with an angle of 60 or 120 degrees. -/
noncomputable def hexLength (a60 : Bool) (q : ℝ × ℝ) : ℝ :=
  √(4 / 3 * ((q.1 / (2 * Real.pi)) ^ 2 + (q.2 / (2 * Real.pi)) ^ 2 +
    2 * Real.cos (if a60 then Real.pi / 3 else 2 * Real.pi / 3) * (q.1 / (2 * Real.pi)) * (q.2 / (2 * Real.pi))))

/-! ### Proofs -/

theorem linspace_get (a b : ℝ) (n i : Nat) (endpoint : Bool) (h : i < n) :
    (linspace a b n endpoint)[i]? = some (a + i * ((b - a) / (if endpoint then (n : ℝ) - 1 else n))) := by
  rw [linspace, List.getElem?_map, List.getElem?_range h]
  rfl

theorem line_get (k1 k2 : ℝ × ℝ) (n i : Nat) (endpoint : Bool) (h : i < n) :
    (gmkgLine k1 k2 n endpoint)[i]? = some (k1 + ((i : ℝ) / (if endpoint then (n : ℝ) - 1 else n)) • (k2 - k1)) := by
  rw [gmkgLine, List.getElem?_zip_eq_some]
  rw [linspace_get _ _ _ _ _ h, linspace_get _ _ _ _ _ h]
  constructor
  · simp only [Option.some.injEq, Prod.fst_add, Prod.smul_fst, Prod.fst_sub, smul_eq_mul]
    ring
  · simp only [Option.some.injEq, Prod.snd_add, Prod.smul_snd, Prod.snd_sub, smul_eq_mul]
    ring

theorem linspace_length (a b : ℝ) (n : Nat) (endpoint : Bool) : (linspace a b n endpoint).length = n := by simp [linspace]

theorem line_length (k1 k2 : ℝ × ℝ) (n : Nat) (endpoint : Bool) : (gmkgLine k1 k2 n endpoint).length = n := by
  simp [gmkgLine, linspace_length]

theorem numbers_pos (N : Nat) (hN : 2 ≤ N) (mesh : Bool) :
    0 < (gmkgNumbers N mesh).1 ∧ 0 < (gmkgNumbers N mesh).2.1 ∧ 1 < (gmkgNumbers N mesh).2.2 := by
  unfold gmkgNumbers
  by_cases h : mesh && N % 6 == 0
  · rw [if_pos h]
    simp at h
    obtain ⟨-, h⟩ := h
    simp only
    omega
  · rw [if_neg h]
    have hN' : (2 : ℝ) ≤ N := by exact_mod_cast hN
    have key : ∀ x : ℝ, 1 / 2 < x → 0 < roundEven x := by
      intro x hx
      have := abs_le.1 (roundEven_near x)
      have : (0 : ℝ) < roundEven x := by linarith
      exact_mod_cast this
    have h3 : √3 ≤ 2 := by
      rw [Real.sqrt_le_left (by norm_num)]
      norm_num
    have h3' : 0 < √3 := by positivity
    have k1 := key (N * (1 / √3)) (by
      rw [mul_one_div, lt_div_iff₀ h3']
      nlinarith)
    have k2 := key (N * (1 / 3)) (by linarith)
    have k3 := key (N * (2 / 3)) (by linarith)
    simp only
    omega

section

variable (N : Nat) (mesh a60 straight lift : Bool)

theorem gmkg_first (i : Nat) (h : i < (gmkgNumbers N mesh).1) :
    (gmkg N mesh a60 straight lift).1[i]? = some (0, Real.pi * (i / (gmkgNumbers N mesh).1)) ∧
    (gmkg N mesh a60 straight lift).2.1[i]? = some (i / (gmkgNumbers N mesh).1 * (1 / √3)) := by
  simp only [gmkg]
  rw [List.getElem?_append_left (by simp [line_length]; omega), List.getElem?_append_left (by simpa [line_length] using h),
    line_get _ _ _ _ _ h,
    List.getElem?_append_left (by simp [linspace_length]; omega), List.getElem?_append_left (by simpa [linspace_length] using h),
    linspace_get _ _ _ _ _ h]
  simp only [Bool.false_eq_true, if_false, Option.some.injEq]
  constructor
  · ext
    · simp
    · simp only [Prod.snd_add, Prod.smul_snd, Prod.snd_sub, smul_eq_mul]
      ring
  · ring

theorem gmkg_second (i : Nat) (h : i < (gmkgNumbers N mesh).2.1) :
    (gmkg N mesh a60 straight lift).1[(gmkgNumbers N mesh).1 + i]? = some ((0, Real.pi) +
      ((i : ℝ) / (gmkgNumbers N mesh).2.1) • ((gmkgPoints a60 straight lift).1 - (0, Real.pi))) ∧
    (gmkg N mesh a60 straight lift).2.1[(gmkgNumbers N mesh).1 + i]? =
      some (1 / √3 + i / (gmkgNumbers N mesh).2.1 * (1 / 3)) := by
  simp only [gmkg]
  rw [List.getElem?_append_left (by simp [line_length]; omega), List.getElem?_append_right (by simp [line_length]),
    line_length, Nat.add_sub_cancel_left, line_get _ _ _ _ _ h,
    List.getElem?_append_left (by simp [linspace_length]; omega), List.getElem?_append_right (by simp [linspace_length]),
    linspace_length, Nat.add_sub_cancel_left, linspace_get _ _ _ _ _ h]
  simp only [Bool.false_eq_true, if_false, Option.some.injEq]
  have hM : ((2 * Real.pi * 0 / 2, 2 * Real.pi * 1 / 2) : ℝ × ℝ) = (0, Real.pi) := by
    ext <;> simp
  rw [hM]
  exact ⟨rfl, by ring⟩

theorem gmkg_third (i : Nat) (h : i < (gmkgNumbers N mesh).2.2) :
    (gmkg N mesh a60 straight lift).1[(gmkgNumbers N mesh).1 + (gmkgNumbers N mesh).2.1 + i]? =
      some ((1 - (i : ℝ) / ((gmkgNumbers N mesh).2.2 - 1)) • (gmkgPoints a60 straight lift).2) ∧
    (gmkg N mesh a60 straight lift).2.1[(gmkgNumbers N mesh).1 + (gmkgNumbers N mesh).2.1 + i]? =
      some (1 / √3 + 1 / 3 + i / ((gmkgNumbers N mesh).2.2 - 1) * (2 / 3)) := by
  simp only [gmkg]
  rw [List.getElem?_append_right (by simp [line_length]), List.length_append, line_length, line_length, Nat.add_sub_cancel_left,
    line_get _ _ _ _ _ h, List.getElem?_append_right (by simp [linspace_length]), List.length_append, linspace_length,
    linspace_length, Nat.add_sub_cancel_left, linspace_get _ _ _ _ _ h]
  simp only [if_true, Option.some.injEq]
  constructor
  · ext
    · simp only [Prod.fst_add, Prod.smul_fst, Prod.fst_sub, smul_eq_mul]
      ring
    · simp only [Prod.snd_add, Prod.smul_snd, Prod.snd_sub, smul_eq_mul]
      ring
  · ring

theorem gmkg_length :
    (gmkg N mesh a60 straight lift).1.length = (gmkgNumbers N mesh).1 + (gmkgNumbers N mesh).2.1 + (gmkgNumbers N mesh).2.2 ∧
    (gmkg N mesh a60 straight lift).2.1.length =
      (gmkgNumbers N mesh).1 + (gmkgNumbers N mesh).2.1 + (gmkgNumbers N mesh).2.2 := by
  simp [gmkg, line_length, linspace_length, Nat.add_assoc]

/-- C105: the path leads from Γ to M, (a point equivalent to) K and back to Γ; the indices of these points are right and their
distances are those of a triangular lattice. -/
theorem C105_corners (hN : 2 ≤ N) : ∃ c1 c2 c3 k, (gmkg N mesh a60 straight false).2.2 = [0, c1, c2, c3] ∧
    0 < c1 ∧ c1 < c2 ∧ c2 < c3 ∧ (gmkg N mesh a60 straight false).1.length = c3 + 1 ∧
    (gmkg N mesh a60 straight false).2.1.length = c3 + 1 ∧
    (gmkg N mesh a60 straight false).1[0]? = some (0, 0) ∧ (gmkg N mesh a60 straight false).2.1[0]? = some 0 ∧
    (gmkg N mesh a60 straight false).1[c1]? = some (0, Real.pi) ∧ (gmkg N mesh a60 straight false).2.1[c1]? = some (1 / √3) ∧
    (gmkg N mesh a60 straight false).1[c2]? = some k ∧ (gmkg N mesh a60 straight false).2.1[c2]? = some (1 / √3 + 1 / 3) ∧
    (∃ m n : ℤ, k = (2 * Real.pi) • ((1 / 3 + m, (if a60 then 1 / 3 else 2 / 3) + n) : ℝ × ℝ)) ∧
    (gmkg N mesh a60 straight false).1[c3]? = some (0, 0) ∧ (gmkg N mesh a60 straight false).2.1[c3]? = some (1 / √3 + 1) := by
  obtain ⟨h1, h2, h3⟩ := numbers_pos N hN mesh
  obtain ⟨l1, l2⟩ := gmkg_length N mesh a60 straight false
  have f0 := gmkg_first N mesh a60 straight false 0 h1
  have s0 := gmkg_second N mesh a60 straight false 0 h2
  have t0 := gmkg_third N mesh a60 straight false 0 (by omega)
  have t1 := gmkg_third N mesh a60 straight false ((gmkgNumbers N mesh).2.2 - 1) (by omega)
  have e3 : (((gmkgNumbers N mesh).2.2 - 1 : ℕ) : ℝ) / ((gmkgNumbers N mesh).2.2 - 1) = 1 := by
    rw [Nat.cast_sub h3.le, Nat.cast_one, div_self]
    have : (1 : ℝ) < (gmkgNumbers N mesh).2.2 := by exact_mod_cast h3
    linarith
  rw [e3] at t1
  rw [← Nat.add_sub_assoc h3.le] at t1
  simp only [Nat.cast_zero, zero_div, mul_zero, zero_mul, zero_smul, add_zero, sub_zero, one_smul, sub_self, one_mul] at f0 s0 t0 t1
  refine ⟨(gmkgNumbers N mesh).1, (gmkgNumbers N mesh).1 + (gmkgNumbers N mesh).2.1,
    (gmkgNumbers N mesh).1 + (gmkgNumbers N mesh).2.1 + (gmkgNumbers N mesh).2.2 - 1, (gmkgPoints a60 straight false).2, rfl,
    h1, by omega, by omega, by omega, by omega, f0.1, f0.2, s0.1, s0.2, t0.1, t0.2, ?_, ?_, ?_⟩
  · cases a60 <;> cases straight <;> simp only [gmkgPoints, if_true, if_false, Bool.false_eq_true]
    · exact ⟨0, 0, by ext <;> simp <;> ring⟩
    · exact ⟨-1, -1, by ext <;> simp <;> ring⟩
    · exact ⟨0, 0, by ext <;> simp <;> ring⟩
    · exact ⟨-1, 0, by ext <;> simp <;> ring⟩
  · rw [t1.1]
    rfl
  · rw [t1.2]
    congr 1
    ring

theorem hexLength_smul (t : ℝ) (ht : 0 ≤ t) (q : ℝ × ℝ) : hexLength a60 (t • q) = t * hexLength a60 q := by
  unfold hexLength
  rw [← Real.sqrt_sq ht, ← Real.sqrt_mul (sq_nonneg t), Real.sqrt_sq ht]
  congr 1
  simp only [Prod.smul_fst, Prod.smul_snd, smul_eq_mul]
  ring

theorem cos_two : Real.cos (2 * Real.pi / 3) = -(1 / 2) := by
  rw [show 2 * Real.pi / 3 = Real.pi - Real.pi / 3 by ring, Real.cos_pi_sub, Real.cos_pi_div_three]

/-- Lengths of the three lines. -/
theorem hexLength_lines : hexLength a60 (0, Real.pi) = 1 / √3 ∧
    hexLength a60 ((gmkgPoints a60 straight false).1 - (0, Real.pi)) = 1 / 3 ∧
    hexLength a60 (-(gmkgPoints a60 straight false).2) = 2 / 3 := by
  have hp := Real.pi_ne_zero
  have hc : Real.cos (if a60 then Real.pi / 3 else 2 * Real.pi / 3) = if a60 then 1 / 2 else -(1 / 2) := by
    cases a60
    · simp only [Bool.false_eq_true, if_false]
      exact cos_two
    · simp only [if_true]
      exact Real.cos_pi_div_three
  have h0 : Real.pi / (2 * Real.pi) = 1 / 2 := by field_simp
  unfold hexLength
  rw [hc]
  refine ⟨?_, ?_, ?_⟩
  · rw [show 1 / √3 = √(1 / 3) by rw [Real.sqrt_div (by norm_num), Real.sqrt_one]]
    congr 1
    simp only [h0]
    cases a60 <;> norm_num
  · rw [Real.sqrt_eq_iff_mul_self_eq_of_pos (by norm_num)]
    cases a60 <;> cases straight <;> simp [gmkgPoints] <;> field_simp <;> norm_num
  · rw [Real.sqrt_eq_iff_mul_self_eq_of_pos (by norm_num)]
    cases a60 <;> cases straight <;> simp [gmkgPoints] <;> field_simp <;> norm_num

/-- C105: the path distance of successive points is the length of the vector between them, up to a reciprocal lattice vector
(the path jumps to an equivalent point at K). -/
theorem C105_length (hN : 2 ≤ N) (l : Nat) (p q : ℝ × ℝ) (hp : (gmkg N mesh a60 straight false).1[l]? = some p)
    (hq : (gmkg N mesh a60 straight false).1[l + 1]? = some q) :
    ∃ x y, (gmkg N mesh a60 straight false).2.1[l]? = some x ∧ (gmkg N mesh a60 straight false).2.1[l + 1]? = some y ∧
      ∃ m n : ℤ, hexLength a60 (q - p + (2 * Real.pi) • ((m, n) : ℝ × ℝ)) = y - x := by
  obtain ⟨h1, h2, h3⟩ := numbers_pos N hN mesh
  obtain ⟨l1, l2⟩ := gmkg_length N mesh a60 straight false
  obtain ⟨g1, g2, g3⟩ := hexLength_lines a60 straight
  have hl : l + 1 < (gmkg N mesh a60 straight false).1.length := by
    by_contra hn
    rw [List.getElem?_eq_none (by omega)] at hq
    simp at hq
  rw [l1] at hl
  have r1 : (0 : ℝ) < (gmkgNumbers N mesh).1 := by exact_mod_cast h1
  have r2 : (0 : ℝ) < (gmkgNumbers N mesh).2.1 := by exact_mod_cast h2
  have r3 : (0 : ℝ) < (gmkgNumbers N mesh).2.2 - 1 := by
    have : (1 : ℝ) < (gmkgNumbers N mesh).2.2 := by exact_mod_cast h3
    linarith
  -- values at the beginning of the second and third line, continued from the previous one
  have key1 : ∀ i, i ≤ (gmkgNumbers N mesh).1 →
      (gmkg N mesh a60 straight false).1[i]? = some (0, Real.pi * (i / (gmkgNumbers N mesh).1)) ∧
      (gmkg N mesh a60 straight false).2.1[i]? = some (i / (gmkgNumbers N mesh).1 * (1 / √3)) := by
    intro i hi
    rcases Nat.lt_or_ge i (gmkgNumbers N mesh).1 with h | h
    · exact gmkg_first N mesh a60 straight false i h
    · obtain rfl : i = (gmkgNumbers N mesh).1 := by omega
      have s0 := gmkg_second N mesh a60 straight false 0 h2
      simp only [Nat.cast_zero, zero_div, zero_mul, zero_smul, add_zero] at s0
      rw [div_self r1.ne', mul_one, one_mul]
      exact s0
  rcases Nat.lt_or_ge l (gmkgNumbers N mesh).1 with c | c
  · obtain ⟨a1, a2⟩ := key1 l c.le
    obtain ⟨b1, b2⟩ := key1 (l + 1) c
    rw [a1, Option.some.injEq] at hp
    rw [b1, Option.some.injEq] at hq
    refine ⟨_, _, a2, b2, 0, 0, ?_⟩
    have e : q - p + (2 * Real.pi) • (((0 : ℤ) : ℝ), ((0 : ℤ) : ℝ)) = (1 / ((gmkgNumbers N mesh).1 : ℝ)) • (0, Real.pi) := by
      rw [← hp, ← hq]
      ext
      · simp
      · simp
        ring
    rw [e, hexLength_smul _ _ (by positivity), g1]
    push_cast
    ring
  rcases Nat.lt_or_ge (l + 1) ((gmkgNumbers N mesh).1 + (gmkgNumbers N mesh).2.1) with c' | c'
  · obtain ⟨i, rfl⟩ : ∃ i, l = (gmkgNumbers N mesh).1 + i := ⟨l - (gmkgNumbers N mesh).1, by omega⟩
    obtain ⟨a1, a2⟩ := gmkg_second N mesh a60 straight false i (by omega)
    obtain ⟨b1, b2⟩ := gmkg_second N mesh a60 straight false (i + 1) (by omega)
    rw [← Nat.add_assoc] at b1 b2
    rw [a1, Option.some.injEq] at hp
    rw [b1, Option.some.injEq] at hq
    refine ⟨_, _, a2, b2, 0, 0, ?_⟩
    have e : q - p + (2 * Real.pi) • (((0 : ℤ) : ℝ), ((0 : ℤ) : ℝ)) =
        (1 / ((gmkgNumbers N mesh).2.1 : ℝ)) • ((gmkgPoints a60 straight false).1 - (0, Real.pi)) := by
      rw [← hp, ← hq]
      ext
      · simp
        ring
      · simp
        ring
    rw [e, hexLength_smul _ _ (by positivity), g2]
    push_cast
    ring
  rcases Nat.lt_or_ge l ((gmkgNumbers N mesh).1 + (gmkgNumbers N mesh).2.1) with c'' | c''
  · obtain ⟨i, hi⟩ : ∃ i, (gmkgNumbers N mesh).2.1 = i + 1 := ⟨(gmkgNumbers N mesh).2.1 - 1, by omega⟩
    obtain rfl : l = (gmkgNumbers N mesh).1 + i := by omega
    obtain ⟨a1, a2⟩ := gmkg_second N mesh a60 straight false i (by omega)
    obtain ⟨b1, b2⟩ := gmkg_third N mesh a60 straight false 0 (by omega)
    simp only [Nat.cast_zero, zero_div, zero_mul, add_zero, sub_zero, one_smul] at b1 b2
    rw [hi, ← Nat.add_assoc] at b1 b2
    rw [a1, Option.some.injEq] at hp
    rw [b1, Option.some.injEq] at hq
    refine ⟨_, _, a2, b2, ?_⟩
    obtain ⟨m, n, hmn⟩ : ∃ m n : ℤ, (gmkgPoints a60 straight false).2 + (2 * Real.pi) • ((m, n) : ℝ × ℝ) =
        (gmkgPoints a60 straight false).1 := by
      cases a60 <;> cases straight <;> simp only [gmkgPoints, if_true, if_false, Bool.false_eq_true]
      · exact ⟨0, 0, by ext <;> simp⟩
      · exact ⟨1, 1, by ext <;> simp <;> ring⟩
      · exact ⟨0, 0, by ext <;> simp⟩
      · exact ⟨1, 0, by ext <;> simp <;> ring⟩
    refine ⟨m, n, ?_⟩
    have hi' : ((gmkgNumbers N mesh).2.1 : ℝ) = i + 1 := by rw [hi]; push_cast; rfl
    have e : q - p + (2 * Real.pi) • ((m, n) : ℝ × ℝ) =
        (1 / ((gmkgNumbers N mesh).2.1 : ℝ)) • ((gmkgPoints a60 straight false).1 - (0, Real.pi)) := by
      rw [← hp, ← hq, sub_add_eq_add_sub, hmn, hi']
      have hi0 : (i : ℝ) + 1 ≠ 0 := by positivity
      ext
      · simp
        field_simp
        ring
      · simp
        field_simp
        ring
    rw [e, hexLength_smul _ _ (by positivity), g2, hi']
    have hi0 : (i : ℝ) + 1 ≠ 0 := by positivity
    field_simp
    ring
  · obtain ⟨i, rfl⟩ : ∃ i, l = (gmkgNumbers N mesh).1 + (gmkgNumbers N mesh).2.1 + i :=
      ⟨l - ((gmkgNumbers N mesh).1 + (gmkgNumbers N mesh).2.1), by omega⟩
    obtain ⟨a1, a2⟩ := gmkg_third N mesh a60 straight false i (by omega)
    obtain ⟨b1, b2⟩ := gmkg_third N mesh a60 straight false (i + 1) (by omega)
    rw [← Nat.add_assoc] at b1 b2
    rw [a1, Option.some.injEq] at hp
    rw [b1, Option.some.injEq] at hq
    refine ⟨_, _, a2, b2, 0, 0, ?_⟩
    have e : q - p + (2 * Real.pi) • (((0 : ℤ) : ℝ), ((0 : ℤ) : ℝ)) =
        (1 / ((gmkgNumbers N mesh).2.2 - 1 : ℝ)) • (-(gmkgPoints a60 straight false).2) := by
      rw [← hp, ← hq]
      ext
      · simp
        ring
      · simp
        ring
    rw [e, hexLength_smul _ _ (by positivity), g3]
    push_cast
    ring

/-- C105: with `mesh` and a multiple of six, all points of the path belong to the uniform mesh. -/
theorem C105_mesh (n : Nat) (hn : 0 < n) (l : Nat) (p : ℝ × ℝ) (hp : (gmkg (6 * n) true a60 straight false).1[l]? = some p) :
    ∃ i j : ℤ, p = (2 * Real.pi) • (((i : ℝ) / (6 * n : ℕ), (j : ℝ) / (6 * n : ℕ)) : ℝ × ℝ) := by
  have hnum : gmkgNumbers (6 * n) true = (3 * n, n, 2 * n + 1) := by
    unfold gmkgNumbers
    rw [if_pos (by simp)]
    simp only [Prod.mk.injEq]
    omega
  have hn' : (n : ℝ) ≠ 0 := Nat.cast_ne_zero.2 (by omega)
  obtain ⟨l1, -⟩ := gmkg_length (6 * n) true a60 straight false
  rw [hnum] at l1
  simp only at l1
  have hl : l < 6 * n + 1 := by
    by_contra hc
    rw [List.getElem?_eq_none (by omega)] at hp
    simp at hp
  rcases Nat.lt_or_ge l (3 * n) with c | c
  · have := (gmkg_first (6 * n) true a60 straight false l (by rw [hnum]; exact c)).1
    rw [hp, Option.some.injEq, hnum] at this
    refine ⟨0, l, ?_⟩
    rw [this]
    ext
    · simp
    · simp
      field_simp
      ring
  rcases Nat.lt_or_ge l (4 * n) with c' | c'
  · obtain ⟨i, rfl⟩ : ∃ i, l = 3 * n + i := ⟨l - 3 * n, by omega⟩
    have := (gmkg_second (6 * n) true a60 straight false i (by rw [hnum]; simp only; omega)).1
    rw [hnum] at this
    simp only at this
    rw [hp, Option.some.injEq] at this
    rw [this]
    cases a60
    · refine ⟨2 * i, 3 * n + i, ?_⟩
      cases straight <;>
      · ext
        · simp [gmkgPoints]
          field_simp
          ring
        · simp [gmkgPoints]
          field_simp
          ring
    · refine ⟨2 * i, 3 * n - i, ?_⟩
      cases straight <;>
      · ext
        · simp [gmkgPoints]
          field_simp
          ring
        · simp [gmkgPoints]
          field_simp
          ring
  · obtain ⟨i, rfl⟩ : ∃ i, l = 3 * n + n + i := ⟨l - 4 * n, by omega⟩
    have := (gmkg_third (6 * n) true a60 straight false i (by rw [hnum]; simp only; omega)).1
    rw [hnum] at this
    simp only at this
    rw [hp, Option.some.injEq] at this
    rw [this]
    cases a60
    · cases straight
      · refine ⟨2 * n - i, 4 * n - 2 * i, ?_⟩
        ext
        · simp [gmkgPoints]
          field_simp
          ring
        · simp [gmkgPoints]
          field_simp
          ring
      · refine ⟨-4 * n + 2 * i, -2 * n + i, ?_⟩
        ext
        · simp [gmkgPoints]
          field_simp
          ring
        · simp [gmkgPoints]
          field_simp
          ring
    · cases straight
      · refine ⟨2 * n - i, 2 * n - i, ?_⟩
        ext
        · simp [gmkgPoints]
          field_simp
          ring
        · simp [gmkgPoints]
          field_simp
          ring
      · refine ⟨-4 * n + 2 * i, 2 * n - i, ?_⟩
        ext
        · simp [gmkgPoints]
          field_simp
          ring
        · simp [gmkgPoints]
          field_simp
          ring

/-- C105: with `straight`, the direction does not change at K. -/
theorem C105_straight : -(gmkgPoints a60 true false).2 = (2 : ℝ) • ((gmkgPoints a60 true false).1 - (0, Real.pi)) := by
  cases a60 <;>
  · ext
    · simp [gmkgPoints]
      ring
    · simp [gmkgPoints]
      ring

/-- The points with and without `lift_degen` are close. -/
theorem gmkgPoints_lift : (∃ t : ℝ, 0 ≤ t ∧ t ≤ 2 / 10 ^ 10 ∧
    (gmkgPoints a60 straight true).1 = (1 - t) • (gmkgPoints a60 straight false).1 ∧
    (gmkgPoints a60 straight true).2 = (1 - t) • (gmkgPoints a60 straight false).2) := by
  cases straight
  · refine ⟨1 - (1 - 1 / 10 ^ 10) * (1 - 1 / 10 ^ 10), by norm_num, by norm_num, ?_, ?_⟩ <;>
    simp only [gmkgPoints, if_true, if_false, Bool.false_eq_true, smul_smul, sub_sub_cancel]
  · refine ⟨1 / 10 ^ 10, by norm_num, by norm_num, ?_, ?_⟩ <;>
    simp only [gmkgPoints, if_true, if_false, Bool.false_eq_true]

theorem gmkgPoints_abs : |(gmkgPoints a60 straight false).1.1| ≤ 5 ∧ |(gmkgPoints a60 straight false).1.2| ≤ 5 ∧
    |(gmkgPoints a60 straight false).2.1| ≤ 5 ∧ |(gmkgPoints a60 straight false).2.2| ≤ 5 := by
  have h1 := Real.pi_pos
  have h2 := Real.pi_lt_d2
  cases a60 <;> cases straight <;> simp [gmkgPoints, abs_le] <;> norm_num at h2 ⊢ <;>
    (repeat' constructor) <;> linarith

/-- C105: `lift_degen` changes neither the number of points nor the path distances and the wave vectors only slightly. -/
theorem C105_lift (hN : 2 ≤ N) (l : Nat) (p q : ℝ × ℝ) (hp : (gmkg N mesh a60 straight false).1[l]? = some p)
    (hq : (gmkg N mesh a60 straight true).1[l]? = some q) :
    (gmkg N mesh a60 straight true).2 = (gmkg N mesh a60 straight false).2 ∧
    |q.1 - p.1| ≤ 1 / 10 ^ 9 ∧ |q.2 - p.2| ≤ 1 / 10 ^ 9 := by
  refine ⟨rfl, ?_⟩
  obtain ⟨h1, h2, h3⟩ := numbers_pos N hN mesh
  obtain ⟨l1, -⟩ := gmkg_length N mesh a60 straight false
  obtain ⟨t, t0, t1, e1, e2⟩ := gmkgPoints_lift a60 straight
  obtain ⟨b1, b2, b3, b4⟩ := gmkgPoints_abs a60 straight
  have hl : l < (gmkg N mesh a60 straight false).1.length := by
    by_contra hn
    rw [List.getElem?_eq_none (by omega)] at hp
    simp at hp
  rw [l1] at hl
  have bound : ∀ s c : ℝ, 0 ≤ s → s ≤ 1 → |c| ≤ 5 → |-(s * t * c)| ≤ 1 / 10 ^ 9 := by
    intro s c hs hs' hc
    rw [abs_neg, abs_mul, abs_mul, abs_of_nonneg hs, abs_of_nonneg t0]
    calc s * t * |c| ≤ 1 * (2 / 10 ^ 10) * 5 := by gcongr
      _ = 1 / 10 ^ 9 := by norm_num
  rcases Nat.lt_or_ge l (gmkgNumbers N mesh).1 with c | c
  · rw [(gmkg_first N mesh a60 straight _ l c).1, Option.some.injEq] at hp hq
    rw [← hp, ← hq]
    simp
  rcases Nat.lt_or_ge l ((gmkgNumbers N mesh).1 + (gmkgNumbers N mesh).2.1) with c' | c'
  · obtain ⟨i, rfl⟩ : ∃ i, l = (gmkgNumbers N mesh).1 + i := ⟨l - (gmkgNumbers N mesh).1, by omega⟩
    rw [(gmkg_second N mesh a60 straight _ i (by omega)).1, Option.some.injEq] at hp hq
    have s0 : (0 : ℝ) ≤ (i : ℝ) / (gmkgNumbers N mesh).2.1 := by positivity
    have s1 : (i : ℝ) / (gmkgNumbers N mesh).2.1 ≤ 1 := by
      rw [div_le_one (by exact_mod_cast h2)]
      have : i ≤ (gmkgNumbers N mesh).2.1 := by omega
      exact_mod_cast this
    rw [← hp, ← hq, e1]
    constructor
    · refine le_of_eq_of_le (congrArg _ ?_) (bound _ _ s0 s1 b1)
      simp only [Prod.fst_add, Prod.smul_fst, Prod.fst_sub, smul_eq_mul]
      ring
    · refine le_of_eq_of_le (congrArg _ ?_) (bound _ _ s0 s1 b2)
      simp only [Prod.snd_add, Prod.smul_snd, Prod.snd_sub, smul_eq_mul]
      ring
  · obtain ⟨i, rfl⟩ : ∃ i, l = (gmkgNumbers N mesh).1 + (gmkgNumbers N mesh).2.1 + i :=
      ⟨l - ((gmkgNumbers N mesh).1 + (gmkgNumbers N mesh).2.1), by omega⟩
    rw [(gmkg_third N mesh a60 straight _ i (by omega)).1, Option.some.injEq] at hp hq
    have r3 : (0 : ℝ) < (gmkgNumbers N mesh).2.2 - 1 := by
      have : (1 : ℝ) < (gmkgNumbers N mesh).2.2 := by exact_mod_cast h3
      linarith
    have s0 : (0 : ℝ) ≤ (i : ℝ) / ((gmkgNumbers N mesh).2.2 - 1) := by positivity
    have s1 : (i : ℝ) / ((gmkgNumbers N mesh).2.2 - 1) ≤ 1 := by
      rw [div_le_one r3]
      have : i + 1 ≤ (gmkgNumbers N mesh).2.2 := by omega
      have : (i : ℝ) + 1 ≤ (gmkgNumbers N mesh).2.2 := by exact_mod_cast this
      linarith
    rw [← hp, ← hq, e2]
    constructor
    · refine le_of_eq_of_le (congrArg _ ?_) (bound _ _ (sub_nonneg.2 s1) (sub_le_self _ s0) b3)
      simp only [Prod.smul_fst, smul_eq_mul]
      ring
    · refine le_of_eq_of_le (congrArg _ ?_) (bound _ _ (sub_nonneg.2 s1) (sub_le_self _ s0) b4)
      simp only [Prod.smul_snd, smul_eq_mul]
      ring

/-- Example: with 12 points on the mesh, the path has 13 points with corners 0, 6, 8, 12. -/
example : (gmkg 12 true false true false).2.2 = [0, 6, 8, 12] ∧ (gmkg 12 true false true false).1.length = 13 := by
  have h : gmkgNumbers 12 true = (6, 2, 5) := rfl
  constructor
  · simp [gmkg, h]
  · simp [(gmkg_length 12 true false true false).1, h]

/-- Example: hypotheses of `C105_length` and `C105_lift` at the jump from `K` to `k`. -/
example : ∃ p q, (gmkg 12 true false true false).1[7]? = some p ∧ (gmkg 12 true false true false).1[8]? = some q := by
  have h := (gmkg_length 12 true false true false).1
  rw [show gmkgNumbers 12 true = (6, 2, 5) from rfl] at h
  exact ⟨_, _, List.getElem?_eq_getElem (by rw [h]; norm_num), List.getElem?_eq_getElem (by rw [h]; norm_num)⟩

end

/-! ### `point_on_path` -/

/-- `elphmod/bravais.py` 2564-2587 (`point_on_path` for three components). The function returns `True` or nothing. -/
noncomputable def pointOnPath (test A B : R3) (eps : ℝ) : Option Bool :=
  let c := cross (B - A) (test - A)
  if ∀ i, |c i| < eps then
    let dot := dot3 (B - A) (test - A)
    if 0 ≤ dot then
      let squaredDistance := (B - A) 0 ^ 2 + (B - A) 1 ^ 2
      if dot ≤ squaredDistance then some true else none
    else none
  else none

/-- C107: if A and B are different and have the same third component, all points between A and B are accepted, and all accepted
points are close to one between A and B. What is missing: directions with a third component. -/
theorem C107_partial (test A B : R3) (eps : ℝ) (he : 0 < eps) (hz : A 2 = B 2) (hAB : A ≠ B) :
    ((∃ t : ℝ, 0 ≤ t ∧ t ≤ 1 ∧ test = A + t • (B - A)) → pointOnPath test A B eps = some true) ∧
    (pointOnPath test A B eps = some true → ∃ t : ℝ, 0 ≤ t ∧ t ≤ 1 ∧
      dot3 (B - A) (B - A) * dot3 (test - (A + t • (B - A))) (test - (A + t • (B - A))) < 3 * eps ^ 2) := by
  have hu2 : (B - A) 2 = 0 := by simp [hz]
  have hu : 0 < dot3 (B - A) (B - A) := by
    have h0 : B - A ≠ 0 := sub_ne_zero.2 hAB.symm
    by_contra hn
    apply h0
    simp only [dot3] at hn
    ext i
    fin_cases i <;> simp only [Fin.zero_eta, Fin.mk_one, Fin.reduceFinMk, Pi.zero_apply] <;>
      nlinarith [mul_self_nonneg ((B - A) 0), mul_self_nonneg ((B - A) 1), mul_self_nonneg ((B - A) 2)]
  have hd : (B - A) 0 ^ 2 + (B - A) 1 ^ 2 = dot3 (B - A) (B - A) := by
    simp only [dot3, hu2]
    ring
  generalize hU : B - A = u at *
  constructor
  · rintro ⟨t, t0, t1, rfl⟩
    have e : A + t • u - A = t • u := by abel
    have hc : ∀ i, |cross u (t • u) i| < eps := by
      intro i
      have : cross u (t • u) i = 0 := by
        fin_cases i <;> simp [cross] <;> ring
      rw [this, abs_zero]
      exact he
    have hdot : dot3 u (t • u) = t * dot3 u u := by
      simp only [dot3, Pi.smul_apply, smul_eq_mul]
      ring
    simp only [pointOnPath, hU, e]
    rw [if_pos hc, hdot, if_pos (by positivity), hd, if_pos (by nlinarith)]
  · intro h
    simp only [pointOnPath, hU] at h
    split_ifs at h with h1 h2 h3
    rw [hd] at h3
    refine ⟨dot3 u (test - A) / dot3 u u, by positivity, (div_le_one hu).2 h3, ?_⟩
    have e : test - (A + (dot3 u (test - A) / dot3 u u) • u) = (test - A) - (dot3 u (test - A) / dot3 u u) • u := by abel
    rw [e]
    generalize test - A = v at *
    have l : dot3 u u * dot3 (v - (dot3 u v / dot3 u u) • u) (v - (dot3 u v / dot3 u u) • u) =
        dot3 u u * dot3 v v - dot3 u v ^ 2 := by
      have : dot3 (v - (dot3 u v / dot3 u u) • u) (v - (dot3 u v / dot3 u u) • u) =
          dot3 v v - 2 * (dot3 u v / dot3 u u) * dot3 u v + (dot3 u v / dot3 u u) ^ 2 * dot3 u u := by
        simp only [dot3, Pi.sub_apply, Pi.smul_apply, smul_eq_mul]
        ring
      rw [this]
      field_simp
      ring
    have l' : dot3 u u * dot3 v v - dot3 u v ^ 2 = cross u v 0 ^ 2 + cross u v 1 ^ 2 + cross u v 2 ^ 2 := by
      simp [dot3, cross]
      ring
    rw [l, l']
    have s0 := sq_lt_sq' (abs_lt.1 (h1 0)).1 (abs_lt.1 (h1 0)).2
    have s1 := sq_lt_sq' (abs_lt.1 (h1 1)).1 (abs_lt.1 (h1 1)).2
    have s2 := sq_lt_sq' (abs_lt.1 (h1 2)).1 (abs_lt.1 (h1 2)).2
    linarith

/-- Example: a point in the plane between two others. -/
example : pointOnPath ![1, 1, 5] ![0, 0, 5] ![2, 2, 5] (1 / 10 ^ 14) = some true := by
  refine (C107_partial _ _ _ _ (by norm_num) (by simp) ?_).1 ⟨1 / 2, by norm_num, by norm_num, ?_⟩
  · intro h
    have := congrFun h 0
    simp at this
  · ext i
    fin_cases i <;> simp

/-- C107 is violated in general: the midpoint of a line along the third axis is not accepted, and if A and B coincide, any
point is accepted. -/
theorem C107_violated : pointOnPath ![0, 0, 1 / 2] ![0, 0, 0] ![0, 0, 1] (1 / 10 ^ 14) = none ∧
    ∀ (test A : R3), pointOnPath test A A (1 / 10 ^ 14) = some true := by
  constructor
  · simp [pointOnPath, dot3]
  · intro test A
    have hc : ∀ i, |cross 0 (test - A) i| < (1 : ℝ) / 10 ^ 14 := by
      intro i
      fin_cases i <;> simp [cross]
    simp only [pointOnPath, sub_self]
    rw [if_pos hc]
    simp [dot3]

end Verif.Bravais
