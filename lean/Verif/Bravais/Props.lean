import Verif.Bravais.Model
import Mathlib.LinearAlgebra.Matrix.NonsingularInverse
import Mathlib.Tactic.FieldSimp
import Mathlib.Tactic.LinearCombination
import Mathlib.Tactic.FinCases

/-! # Properties C30, C31, C32, C66 -/

namespace Verif.Bravais

/-! ## C30 -/

theorem rotate_m90 (v : R2) : rotate v (-90 * deg) = ![v 1, -v 0] := by
  have : (-90 * deg : ℝ) = -(Real.pi / 2) := by unfold deg; ring
  rw [this, rotate, Real.cos_neg, Real.sin_neg, Real.cos_pi_div_two, Real.sin_pi_div_two]
  simp

theorem rotate_90 (v : R2) : rotate v (90 * deg) = ![-v 1, v 0] := by
  have : (90 * deg : ℝ) = Real.pi / 2 := by unfold deg; ring
  rw [this, rotate, Real.cos_pi_div_two, Real.sin_pi_div_two]
  simp

theorem dot2_div (u v : R2) (c : ℝ) : dot2 u (fun i => v i / c) = dot2 u v / c := by
  unfold dot2; ring

theorem dot3_div (u v : R3) (c : ℝ) : dot3 u (fun i => v i / c) = dot3 u v / c := by
  unfold dot3; ring

/-- C30 (plane). -/
theorem C30_reciprocals_2d (a1 a2 : R2) (h : a1 0 * a2 1 - a1 1 * a2 0 ≠ 0) :
    dot2 a1 (reciprocals2 a1 a2).1 = 1 ∧ dot2 a1 (reciprocals2 a1 a2).2 = 0 ∧
    dot2 a2 (reciprocals2 a1 a2).1 = 0 ∧ dot2 a2 (reciprocals2 a1 a2).2 = 1 := by
  have h1 : dot2 a1 ![a2 1, -a2 0] ≠ 0 := by
    intro h'; apply h
    simp only [dot2, Matrix.cons_val_zero, Matrix.cons_val_one] at h'
    linear_combination h'
  have h2 : dot2 a2 ![-a1 1, a1 0] ≠ 0 := by
    intro h'; apply h
    simp only [dot2, Matrix.cons_val_zero, Matrix.cons_val_one] at h'
    linear_combination h'
  simp only [reciprocals2, rotate_m90, rotate_90, dot2_div]
  refine ⟨div_self h1, ?_, ?_, div_self h2⟩
  · rw [show dot2 a1 ![-a1 1, a1 0] = 0 by simp [dot2]; ring, zero_div]
  · rw [show dot2 a2 ![a2 1, -a2 0] = 0 by simp [dot2]; ring, zero_div]

/-- C30 (space): duality. -/
theorem C30_reciprocals_3d (a : Fin 3 → R3) (h : dot3 (a 0) (cross (a 1) (a 2)) ≠ 0) :
    ∀ i j, dot3 (a i) (![(reciprocals3 (a 0) (a 1) (a 2)).1, (reciprocals3 (a 0) (a 1) (a 2)).2.1,
      (reciprocals3 (a 0) (a 1) (a 2)).2.2] j) = if i = j then 1 else 0 := by
  have h2 : dot3 (a 1) (cross (a 2) (a 0)) = dot3 (a 0) (cross (a 1) (a 2)) := by
    simp [dot3, cross]; ring
  have h3 : dot3 (a 2) (cross (a 0) (a 1)) = dot3 (a 0) (cross (a 1) (a 2)) := by
    simp [dot3, cross]; ring
  have z : ∀ u v : R3, dot3 u (cross u v) = 0 ∧ dot3 v (cross u v) = 0 := by
    intro u v
    constructor <;> simp [dot3, cross] <;> ring
  intro i j
  fin_cases i <;> fin_cases j <;> simp [reciprocals3, dot3_div, h2, h3, h, z]

/-- C30 (volumes of direct and reciprocal cells). -/
theorem C30_volume (a1 a2 a3 : R3) (h : dot3 a1 (cross a2 a3) ≠ 0) :
    volume a1 a2 a3 * volume (reciprocals3 a1 a2 a3).1 (reciprocals3 a1 a2 a3).2.1
      (reciprocals3 a1 a2 a3).2.2 = 1 := by
  have h2 : dot3 a2 (cross a3 a1) = dot3 a1 (cross a2 a3) := by
    simp [dot3, cross]; ring
  have h3 : dot3 a3 (cross a1 a2) = dot3 a1 (cross a2 a3) := by
    simp [dot3, cross]; ring
  unfold volume
  rw [← abs_mul]
  have : dot3 a1 (cross a2 a3) * dot3 (reciprocals3 a1 a2 a3).1 (cross (reciprocals3 a1 a2 a3).2.1
      (reciprocals3 a1 a2 a3).2.2) = 1 := by
    simp only [reciprocals3, h2, h3]
    set V := dot3 a1 (cross a2 a3) with hV
    have e : dot3 (fun i => cross a2 a3 i / V) (cross (fun i => cross a3 a1 i / V)
        fun i => cross a1 a2 i / V) = V ^ 2 / V ^ 3 := by
      have : V ^ 2 = dot3 (cross a2 a3) (cross (cross a3 a1) (cross a1 a2)) := by
        rw [hV]; simp [dot3, cross]; ring
      rw [this]
      simp [dot3, cross]
      field_simp
    rw [e]
    field_simp
  rw [this, abs_one]

/-- C30 (translation vectors). The vectors have unit length, the first one has the angle `angle0` with the
x axis, and the second one has the angle `angle` with the first one. -/
theorem C30_translations (angle angle0 : ℝ) :
    let a := translations angle angle0
    a.1 = ![Real.cos (angle0 * deg), Real.sin (angle0 * deg)] ∧
    a.2 = ![Real.cos ((angle0 + angle) * deg), Real.sin ((angle0 + angle) * deg)] ∧
    dot2 a.1 a.1 = 1 ∧ dot2 a.2 a.2 = 1 ∧ dot2 a.1 a.2 = Real.cos (angle * deg) ∧
    a.1 0 * a.2 1 - a.1 1 * a.2 0 = Real.sin (angle * deg) := by
  have e : (angle0 + angle) * deg = angle0 * deg + angle * deg := by ring
  rw [e, Real.cos_add, Real.sin_add]
  generalize hx : angle0 * deg = x
  generalize hy : angle * deg = y
  have h1 := Real.sin_sq_add_cos_sq x
  have h2 := Real.sin_sq_add_cos_sq y
  simp only [translations, rotate, dot2, hx, hy, Matrix.cons_val_zero, Matrix.cons_val_one]
  refine ⟨?_, ?_, ?_, ?_, ?_, ?_⟩
  · simp
  · ext i
    fin_cases i <;> simp <;> ring
  · linear_combination h1
  · linear_combination (Real.cos x ^ 2 + Real.sin x ^ 2) * h2 + h1
  · linear_combination Real.cos y * h1
  · linear_combination Real.sin y * h1

/-- C30 (areas). -/
theorem C30_area (a1 a2 : R2) (h : a1 0 * a2 1 - a1 1 * a2 0 ≠ 0) :
    area a1 a2 * area (reciprocals2 a1 a2).1 (reciprocals2 a1 a2).2 = 1 := by
  unfold area
  rw [← abs_mul]
  have h1 : a1 0 * a2 1 + a1 1 * -a2 0 ≠ 0 := by
    intro h'; apply h; linear_combination h'
  have h2 : a2 0 * -a1 1 + a2 1 * a1 0 ≠ 0 := by
    intro h'; apply h; linear_combination h'
  have : (a1 0 * a2 1 - a1 1 * a2 0) * ((reciprocals2 a1 a2).1 0 * (reciprocals2 a1 a2).2 1 -
      (reciprocals2 a1 a2).1 1 * (reciprocals2 a1 a2).2 0) = 1 := by
    simp only [reciprocals2, rotate_m90, rotate_90, dot2, Matrix.cons_val_zero, Matrix.cons_val_one]
    rw [show a1 0 * a2 1 + a1 1 * -a2 0 = a1 0 * a2 1 - a1 1 * a2 0 by ring,
      show a2 0 * -a1 1 + a2 1 * a1 0 = a1 0 * a2 1 - a1 1 * a2 0 by ring]
    generalize hV : a1 0 * a2 1 - a1 1 * a2 0 = V at h
    have e : a2 1 / V * (a1 0 / V) - -a2 0 / V * (-a1 1 / V) = V / V ^ 2 := by
      rw [← hV]; field_simp
    rw [e]
    field_simp
  rw [this, abs_one]

/-- Contract of `np.linalg.inv`: right inverse of every nonsingular matrix. -/
def IsInv (inv : M3 → M3) : Prop :=
  ∀ A : M3, Matrix.det (Matrix.of A) ≠ 0 → Matrix.of A * Matrix.of (inv A) = 1

/-- C30 (coordinates). Both conversions undo each other. -/
theorem C30_coordinates (inv : M3 → M3) (hinv : IsInv inv) (a1 a2 a3 : R3)
    (h : dot3 a1 (cross a2 a3) ≠ 0) (r : R3) :
    cartesianToCrystal inv a1 a2 a3 (crystalToCartesian a1 a2 a3 r) = r ∧
    crystalToCartesian a1 a2 a3 (cartesianToCrystal inv a1 a2 a3 r) = r := by
  set A : M3 := fun i j => (![a1, a2, a3] j) i with hA
  have hdet : Matrix.det (Matrix.of A) ≠ 0 := by
    rw [Matrix.det_fin_three]
    simp only [hA, Matrix.of_apply]
    simp [dot3, cross] at h ⊢
    intro h'
    apply h
    linear_combination h'
  have h1 := hinv A hdet
  have h2 : Matrix.of (inv A) * Matrix.of A = 1 := mul_eq_one_comm.1 h1
  have e1 : ∀ r, crystalToCartesian a1 a2 a3 r = (Matrix.of A).mulVec r := by
    intro r
    funext x
    have e0 : A x 0 = a1 x := rfl
    have e1 : A x 1 = a2 x := rfl
    have e2 : A x 2 = a3 x := rfl
    simp only [crystalToCartesian, Matrix.mulVec, dotProduct, Fin.sum_univ_three, Matrix.of_apply, e0,
      e1, e2]
    ring
  have e2 : ∀ r, cartesianToCrystal inv a1 a2 a3 r = (Matrix.of (inv A)).mulVec r := by
    intro r
    funext x
    simp only [Matrix.mulVec, dotProduct, Fin.sum_univ_three, Matrix.of_apply]
    rfl
  constructor
  · rw [e1, e2, Matrix.mulVec_mulVec, h2, Matrix.one_mulVec]
  · rw [e1, e2, Matrix.mulVec_mulVec, h1, Matrix.one_mulVec]

example : dot3 ![1, 0, 0] (cross ![1, 2, 0] ![0, 1, 3]) ≠ 0 := by
  simp [dot3, cross]

example : IsInv fun A i j => (Matrix.of A)⁻¹ i j := by
  intro A h
  have : Matrix.of (fun i j => (Matrix.of A)⁻¹ i j) = (Matrix.of A)⁻¹ := rfl
  rw [this]
  exact Matrix.mul_nonsing_inv _ (isUnit_iff_ne_zero.2 h)

/-! ## C31 -/

/-- Conventional cell: lengths `a`, `b`, `c` and cosines of the angles between them. -/
structure Cell where
  a : ℝ
  b : ℝ
  c : ℝ
  cosbc : ℝ
  cosac : ℝ
  cosab : ℝ

/-- Scalar products of the vectors of the conventional cell. -/
def Cell.metric (C : Cell) : M3 :=
  ![![C.a ^ 2, C.a * C.b * C.cosab, C.a * C.c * C.cosac],
    ![C.a * C.b * C.cosab, C.b ^ 2, C.b * C.c * C.cosbc],
    ![C.a * C.c * C.cosac, C.b * C.c * C.cosbc, C.c ^ 2]]

/-- The lattice system documented for each index (Quantum ESPRESSO, `INPUT_PW`): conventional cell as
function of the free parameters. -/
noncomputable def conventional (ibrav : Int) (p : Cell) : Cell :=
  if ibrav ∈ ([1, 2, 3, -3] : List Int) then ⟨p.a, p.a, p.a, 0, 0, 0⟩
  else if ibrav = 4 then ⟨p.a, p.a, p.c, 0, 0, -1 / 2⟩
  else if ibrav ∈ ([5, -5] : List Int) then ⟨p.a, p.a, p.a, p.cosab, p.cosab, p.cosab⟩
  else if ibrav ∈ ([6, 7] : List Int) then ⟨p.a, p.a, p.c, 0, 0, 0⟩
  else if ibrav ∈ ([8, 9, -9, 91, 10, 11] : List Int) then ⟨p.a, p.b, p.c, 0, 0, 0⟩
  else if ibrav ∈ ([12, 13] : List Int) then ⟨p.a, p.b, p.c, 0, 0, p.cosab⟩
  else if ibrav ∈ ([-12, -13] : List Int) then ⟨p.a, p.b, p.c, 0, p.cosac, 0⟩
  else p

/-- Documented primitive vectors in terms of those of the conventional cell (rows). -/
noncomputable def centring (ibrav : Int) : M3 :=
  if ibrav = 2 then ![![-1 / 2, 0, 1 / 2], ![0, 1 / 2, 1 / 2], ![-1 / 2, 1 / 2, 0]]
  else if ibrav = 3 ∨ ibrav = 11 then
    ![![1 / 2, 1 / 2, 1 / 2], ![-1 / 2, 1 / 2, 1 / 2], ![-1 / 2, -1 / 2, 1 / 2]]
  else if ibrav = -3 then ![![-1 / 2, 1 / 2, 1 / 2], ![1 / 2, -1 / 2, 1 / 2], ![1 / 2, 1 / 2, -1 / 2]]
  else if ibrav = 7 then ![![1 / 2, -1 / 2, 1 / 2], ![1 / 2, 1 / 2, 1 / 2], ![-1 / 2, -1 / 2, 1 / 2]]
  else if ibrav = 9 ∨ ibrav = -13 then ![![1 / 2, 1 / 2, 0], ![-1 / 2, 1 / 2, 0], ![0, 0, 1]]
  else if ibrav = -9 then ![![1 / 2, -1 / 2, 0], ![1 / 2, 1 / 2, 0], ![0, 0, 1]]
  else if ibrav = 91 then ![![1, 0, 0], ![0, 1 / 2, -1 / 2], ![0, 1 / 2, 1 / 2]]
  else if ibrav = 10 then ![![1 / 2, 0, 1 / 2], ![1 / 2, 1 / 2, 0], ![0, 1 / 2, 1 / 2]]
  else if ibrav = 13 then ![![1 / 2, 0, -1 / 2], ![0, 1, 0], ![1 / 2, 0, 1 / 2]]
  else ![![1, 0, 0], ![0, 1, 0], ![0, 0, 1]]

/-- Supported indices (other than zero). -/
def Supported (ibrav : Int) : Prop :=
  ibrav ∈ ([1, 2, 3, -3, 4, 5, -5, 6, 7, 8, 9, -9, 91, 10, 11, 12, -12, 13, -13, 14] : List Int)

/-- The parameters describe a nondegenerate cell. -/
def Cell.Valid (C : Cell) : Prop :=
  0 < C.a ∧ 0 < C.b ∧ 0 < C.c ∧ C.cosab ^ 2 < 1 ∧
    0 < 1 + 2 * C.cosbc * C.cosac * C.cosab - C.cosbc ^ 2 - C.cosac ^ 2 - C.cosab ^ 2

/-- Scalar product of primitive vectors according to the documentation. -/
noncomputable def documented (ibrav : Int) (p : Cell) (i j : Fin 3) : ℝ :=
  ∑ k, ∑ l, centring ibrav i k * (conventional ibrav p).metric k l * centring ibrav j l

/-- Parameters that `celldm` stands for, lengths in the unit of its first element. -/
noncomputable def cellOf (ibrav : Int) (cd : Fin 6 → ℝ) : Cell :=
  if ibrav = 14 then ⟨cd 0, cd 0 * cd 1, cd 0 * cd 2, cd 3, cd 4, cd 5⟩
  else ⟨cd 0, cd 0 * cd 1, cd 0 * cd 2, 0, cd 4, cd 3⟩

theorem gram_1 (cd : Fin 6 → ℝ) (hv : (conventional 1 (cellOf 1 cd)).Valid) :
    ∃ v, latgen 1 cd = some v ∧ (∀ i j, dot3 (v i) (v j) = documented 1 (cellOf 1 cd) i j) ∧
      0 < dot3 (v 0) (cross (v 1) (v 2)) := by
  have hT : centring 1 = ![![1, 0, 0], ![0, 1, 0], ![0, 0, 1]] := by simp [centring]
  have hC : conventional 1 (cellOf 1 cd) = ⟨cd 0, cd 0, cd 0, 0, 0, 0⟩ := by
    simp [conventional, cellOf]
  rw [hC] at hv
  obtain ⟨ha, hb, hc, h1, h2⟩ := hv
  simp only at ha hb hc h1 h2
  refine ⟨_, rfl, ?_⟩
  constructor
  · unfold documented
    rw [hT, hC]
    intro i j
    fin_cases i <;> fin_cases j <;>
      simp only [dot3, Cell.metric, Fin.sum_univ_three, Fin.zero_eta, Fin.mk_one, Fin.reduceFinMk,
        Matrix.cons_val_zero, Matrix.cons_val_one, Matrix.cons_val]
    all_goals first
      | ring1
  · have e : (0 : ℝ) < cd 0 ^ 3 := by positivity
    refine lt_of_lt_of_eq e ?_
    simp only [dot3, cross, Matrix.cons_val_zero, Matrix.cons_val_one, Matrix.cons_val]
    ring1

theorem gram_2 (cd : Fin 6 → ℝ) (hv : (conventional 2 (cellOf 2 cd)).Valid) :
    ∃ v, latgen 2 cd = some v ∧ (∀ i j, dot3 (v i) (v j) = documented 2 (cellOf 2 cd) i j) ∧
      0 < dot3 (v 0) (cross (v 1) (v 2)) := by
  have hT : centring 2 = ![![-1 / 2, 0, 1 / 2], ![0, 1 / 2, 1 / 2], ![-1 / 2, 1 / 2, 0]] := by simp [centring]
  have hC : conventional 2 (cellOf 2 cd) = ⟨cd 0, cd 0, cd 0, 0, 0, 0⟩ := by
    simp [conventional, cellOf]
  rw [hC] at hv
  obtain ⟨ha, hb, hc, h1, h2⟩ := hv
  simp only at ha hb hc h1 h2
  refine ⟨_, rfl, ?_⟩
  constructor
  · unfold documented
    rw [hT, hC]
    intro i j
    fin_cases i <;> fin_cases j <;>
      simp only [dot3, Cell.metric, Fin.sum_univ_three, Fin.zero_eta, Fin.mk_one, Fin.reduceFinMk,
        Matrix.cons_val_zero, Matrix.cons_val_one, Matrix.cons_val]
    all_goals first
      | ring1
  · have e : (0 : ℝ) < cd 0 ^ 3 / 4 := by positivity
    refine lt_of_lt_of_eq e ?_
    simp only [dot3, cross, Matrix.cons_val_zero, Matrix.cons_val_one, Matrix.cons_val]
    ring1

theorem gram_3 (cd : Fin 6 → ℝ) (hv : (conventional 3 (cellOf 3 cd)).Valid) :
    ∃ v, latgen 3 cd = some v ∧ (∀ i j, dot3 (v i) (v j) = documented 3 (cellOf 3 cd) i j) ∧
      0 < dot3 (v 0) (cross (v 1) (v 2)) := by
  have hT : centring 3 = ![![1 / 2, 1 / 2, 1 / 2], ![-1 / 2, 1 / 2, 1 / 2], ![-1 / 2, -1 / 2, 1 / 2]] := by simp [centring]
  have hC : conventional 3 (cellOf 3 cd) = ⟨cd 0, cd 0, cd 0, 0, 0, 0⟩ := by
    simp [conventional, cellOf]
  rw [hC] at hv
  obtain ⟨ha, hb, hc, h1, h2⟩ := hv
  simp only at ha hb hc h1 h2
  refine ⟨_, rfl, ?_⟩
  constructor
  · unfold documented
    rw [hT, hC]
    intro i j
    fin_cases i <;> fin_cases j <;>
      simp only [dot3, Cell.metric, Fin.sum_univ_three, Fin.zero_eta, Fin.mk_one, Fin.reduceFinMk,
        Matrix.cons_val_zero, Matrix.cons_val_one, Matrix.cons_val]
    all_goals first
      | ring1
  · have e : (0 : ℝ) < cd 0 ^ 3 / 2 := by positivity
    refine lt_of_lt_of_eq e ?_
    simp only [dot3, cross, Matrix.cons_val_zero, Matrix.cons_val_one, Matrix.cons_val]
    ring1

theorem gram_m3 (cd : Fin 6 → ℝ) (hv : (conventional (-3) (cellOf (-3) cd)).Valid) :
    ∃ v, latgen (-3) cd = some v ∧ (∀ i j, dot3 (v i) (v j) = documented (-3) (cellOf (-3) cd) i j) ∧
      0 < dot3 (v 0) (cross (v 1) (v 2)) := by
  have hT : centring (-3) = ![![-1 / 2, 1 / 2, 1 / 2], ![1 / 2, -1 / 2, 1 / 2], ![1 / 2, 1 / 2, -1 / 2]] := by simp [centring]
  have hC : conventional (-3) (cellOf (-3) cd) = ⟨cd 0, cd 0, cd 0, 0, 0, 0⟩ := by
    simp [conventional, cellOf]
  rw [hC] at hv
  obtain ⟨ha, hb, hc, h1, h2⟩ := hv
  simp only at ha hb hc h1 h2
  refine ⟨_, rfl, ?_⟩
  constructor
  · unfold documented
    rw [hT, hC]
    intro i j
    fin_cases i <;> fin_cases j <;>
      simp only [dot3, Cell.metric, Fin.sum_univ_three, Fin.zero_eta, Fin.mk_one, Fin.reduceFinMk,
        Matrix.cons_val_zero, Matrix.cons_val_one, Matrix.cons_val]
    all_goals first
      | ring1
  · have e : (0 : ℝ) < cd 0 ^ 3 / 2 := by positivity
    refine lt_of_lt_of_eq e ?_
    simp only [dot3, cross, Matrix.cons_val_zero, Matrix.cons_val_one, Matrix.cons_val]
    ring1

theorem gram_4 (cd : Fin 6 → ℝ) (hv : (conventional 4 (cellOf 4 cd)).Valid) :
    ∃ v, latgen 4 cd = some v ∧ (∀ i j, dot3 (v i) (v j) = documented 4 (cellOf 4 cd) i j) ∧
      0 < dot3 (v 0) (cross (v 1) (v 2)) := by
  have hT : centring 4 = ![![1, 0, 0], ![0, 1, 0], ![0, 0, 1]] := by simp [centring]
  have hC : conventional 4 (cellOf 4 cd) = ⟨cd 0, cd 0, cd 0 * cd 2, 0, 0, -1 / 2⟩ := by
    simp [conventional, cellOf]
  rw [hC] at hv
  obtain ⟨ha, hb, hc, h1, h2⟩ := hv
  simp only at ha hb hc h1 h2
  have pc : 0 < cd 2 := pos_of_mul_pos_right hc ha.le
  refine ⟨_, rfl, ?_⟩
  have hs : Real.sqrt 3 ^ 2 = 3 := Real.sq_sqrt (by norm_num)
  have p : 0 < Real.sqrt 3 := by positivity
  constructor
  · unfold documented
    rw [hT, hC]
    intro i j
    fin_cases i <;> fin_cases j <;>
      simp only [dot3, Cell.metric, Fin.sum_univ_three, Fin.zero_eta, Fin.mk_one, Fin.reduceFinMk,
        Matrix.cons_val_zero, Matrix.cons_val_one, Matrix.cons_val]
    all_goals first
      | ring1
      | linear_combination cd 0 ^ 2 / 4 * hs
  · have e : (0 : ℝ) < cd 0 ^ 3 * Real.sqrt 3 / 2 * cd 2 := by positivity
    refine lt_of_lt_of_eq e ?_
    simp only [dot3, cross, Matrix.cons_val_zero, Matrix.cons_val_one, Matrix.cons_val]
    ring1

theorem gram_5 (cd : Fin 6 → ℝ) (hv : (conventional 5 (cellOf 5 cd)).Valid) :
    ∃ v, latgen 5 cd = some v ∧ (∀ i j, dot3 (v i) (v j) = documented 5 (cellOf 5 cd) i j) ∧
      0 < dot3 (v 0) (cross (v 1) (v 2)) := by
  have hT : centring 5 = ![![1, 0, 0], ![0, 1, 0], ![0, 0, 1]] := by simp [centring]
  have hC : conventional 5 (cellOf 5 cd) = ⟨cd 0, cd 0, cd 0, cd 3, cd 3, cd 3⟩ := by
    simp [conventional, cellOf]
  rw [hC] at hv
  obtain ⟨ha, hb, hc, h1, h2⟩ := hv
  simp only at ha hb hc h1 h2
  refine ⟨_, rfl, ?_⟩
  have q1 : 0 < 1 - cd 3 := by nlinarith
  have q2 : 0 < 1 + 2 * cd 3 := by
    by_contra hn
    have h3 : (1 - cd 3) ^ 2 * (1 + 2 * cd 3) ≤ 0 := mul_nonpos_of_nonneg_of_nonpos (by positivity) (by linarith)
    nlinarith
  have hy : Real.sqrt ((1 - cd 3) / 6) ^ 2 = (1 - cd 3) / 6 := Real.sq_sqrt (by linarith)
  have hz : Real.sqrt ((1 + 2 * cd 3) / 3) ^ 2 = (1 + 2 * cd 3) / 3 := Real.sq_sqrt (by linarith)
  have py : 0 < Real.sqrt ((1 - cd 3) / 6) := Real.sqrt_pos.2 (by linarith)
  have pz : 0 < Real.sqrt ((1 + 2 * cd 3) / 3) := Real.sqrt_pos.2 (by linarith)
  have hx : Real.sqrt ((1 - cd 3) / 2) ^ 2 = (1 - cd 3) / 2 := Real.sq_sqrt (by linarith)
  have px : 0 < Real.sqrt ((1 - cd 3) / 2) := Real.sqrt_pos.2 (by linarith)
  generalize Real.sqrt ((1 - cd 3) / 6) = ty at *
  generalize Real.sqrt ((1 + 2 * cd 3) / 3) = tz at *
  generalize Real.sqrt ((1 - cd 3) / 2) = tx at *
  constructor
  · unfold documented
    rw [hT, hC]
    intro i j
    fin_cases i <;> fin_cases j <;>
      simp only [dot3, Cell.metric, Fin.sum_univ_three, Fin.zero_eta, Fin.mk_one, Fin.reduceFinMk,
        Matrix.cons_val_zero, Matrix.cons_val_one, Matrix.cons_val]
    all_goals first
      | ring1
      | linear_combination cd 0 ^ 2 * (hx + hy + hz)
      | linear_combination cd 0 ^ 2 * (-2 * hy + hz)
      | linear_combination cd 0 ^ 2 * (-hx + hy + hz)
      | linear_combination cd 0 ^ 2 * (4 * hy + hz)
  · have e : (0 : ℝ) < 6 * cd 0 ^ 3 * tx * ty * tz := by positivity
    refine lt_of_lt_of_eq e ?_
    simp only [dot3, cross, Matrix.cons_val_zero, Matrix.cons_val_one, Matrix.cons_val]
    ring1

theorem gram_m5 (cd : Fin 6 → ℝ) (hv : (conventional (-5) (cellOf (-5) cd)).Valid) :
    ∃ v, latgen (-5) cd = some v ∧ (∀ i j, dot3 (v i) (v j) = documented (-5) (cellOf (-5) cd) i j) ∧
      0 < dot3 (v 0) (cross (v 1) (v 2)) := by
  have hT : centring (-5) = ![![1, 0, 0], ![0, 1, 0], ![0, 0, 1]] := by simp [centring]
  have hC : conventional (-5) (cellOf (-5) cd) = ⟨cd 0, cd 0, cd 0, cd 3, cd 3, cd 3⟩ := by
    simp [conventional, cellOf]
  rw [hC] at hv
  obtain ⟨ha, hb, hc, h1, h2⟩ := hv
  simp only at ha hb hc h1 h2
  refine ⟨_, rfl, ?_⟩
  have q1 : 0 < 1 - cd 3 := by nlinarith
  have q2 : 0 < 1 + 2 * cd 3 := by
    by_contra hn
    have h3 : (1 - cd 3) ^ 2 * (1 + 2 * cd 3) ≤ 0 := mul_nonpos_of_nonneg_of_nonpos (by positivity) (by linarith)
    nlinarith
  have hy : Real.sqrt ((1 - cd 3) / 6) ^ 2 = (1 - cd 3) / 6 := Real.sq_sqrt (by linarith)
  have hz : Real.sqrt ((1 + 2 * cd 3) / 3) ^ 2 = (1 + 2 * cd 3) / 3 := Real.sq_sqrt (by linarith)
  have py : 0 < Real.sqrt ((1 - cd 3) / 6) := Real.sqrt_pos.2 (by linarith)
  have pz : 0 < Real.sqrt ((1 + 2 * cd 3) / 3) := Real.sqrt_pos.2 (by linarith)
  have hw : Real.sqrt 2 ^ 2 = 2 := Real.sq_sqrt (by norm_num)
  have pw : 0 < Real.sqrt 2 := by positivity
  have hr : (Real.sqrt 3)⁻¹ ^ 2 = 1 / 3 := by rw [inv_pow, Real.sq_sqrt (by norm_num)]; norm_num
  have pr : 0 < (Real.sqrt 3)⁻¹ := by positivity
  simp only [div_eq_mul_inv (cd 0) (Real.sqrt 3)]
  generalize Real.sqrt ((1 - cd 3) / 6) = ty at *
  generalize Real.sqrt ((1 + 2 * cd 3) / 3) = tz at *
  generalize Real.sqrt 2 = w at *
  generalize (Real.sqrt 3)⁻¹ = r at *
  constructor
  · unfold documented
    rw [hT, hC]
    intro i j
    fin_cases i <;> fin_cases j <;>
      simp only [dot3, Cell.metric, Fin.sum_univ_three, Fin.zero_eta, Fin.mk_one, Fin.reduceFinMk,
        Matrix.cons_val_zero, Matrix.cons_val_one, Matrix.cons_val]
    all_goals first
      | ring1
      | linear_combination cd 0 ^ 2 * ((3 * tz ^ 2 + 6 * w ^ 2 * ty ^ 2) * hr + 2 * ty ^ 2 * hw + hz + 4 * hy)
      | linear_combination cd 0 ^ 2 * ((3 * tz ^ 2 - 3 * w ^ 2 * ty ^ 2) * hr - ty ^ 2 * hw + hz - 2 * hy)
  · have e : (0 : ℝ) < cd 0 ^ 3 * r ^ 3 * (9 * w ^ 2 * ty ^ 2 * (3 * tz)) := by positivity
    refine lt_of_lt_of_eq e ?_
    simp only [dot3, cross, Matrix.cons_val_zero, Matrix.cons_val_one, Matrix.cons_val]
    ring1

theorem gram_6 (cd : Fin 6 → ℝ) (hv : (conventional 6 (cellOf 6 cd)).Valid) :
    ∃ v, latgen 6 cd = some v ∧ (∀ i j, dot3 (v i) (v j) = documented 6 (cellOf 6 cd) i j) ∧
      0 < dot3 (v 0) (cross (v 1) (v 2)) := by
  have hT : centring 6 = ![![1, 0, 0], ![0, 1, 0], ![0, 0, 1]] := by simp [centring]
  have hC : conventional 6 (cellOf 6 cd) = ⟨cd 0, cd 0, cd 0 * cd 2, 0, 0, 0⟩ := by
    simp [conventional, cellOf]
  rw [hC] at hv
  obtain ⟨ha, hb, hc, h1, h2⟩ := hv
  simp only at ha hb hc h1 h2
  have pc : 0 < cd 2 := pos_of_mul_pos_right hc ha.le
  refine ⟨_, rfl, ?_⟩
  constructor
  · unfold documented
    rw [hT, hC]
    intro i j
    fin_cases i <;> fin_cases j <;>
      simp only [dot3, Cell.metric, Fin.sum_univ_three, Fin.zero_eta, Fin.mk_one, Fin.reduceFinMk,
        Matrix.cons_val_zero, Matrix.cons_val_one, Matrix.cons_val]
    all_goals first
      | ring1
  · have e : (0 : ℝ) < cd 0 ^ 3 * cd 2 := by positivity
    refine lt_of_lt_of_eq e ?_
    simp only [dot3, cross, Matrix.cons_val_zero, Matrix.cons_val_one, Matrix.cons_val]
    ring1

theorem gram_7 (cd : Fin 6 → ℝ) (hv : (conventional 7 (cellOf 7 cd)).Valid) :
    ∃ v, latgen 7 cd = some v ∧ (∀ i j, dot3 (v i) (v j) = documented 7 (cellOf 7 cd) i j) ∧
      0 < dot3 (v 0) (cross (v 1) (v 2)) := by
  have hT : centring 7 = ![![1 / 2, -1 / 2, 1 / 2], ![1 / 2, 1 / 2, 1 / 2], ![-1 / 2, -1 / 2, 1 / 2]] := by simp [centring]
  have hC : conventional 7 (cellOf 7 cd) = ⟨cd 0, cd 0, cd 0 * cd 2, 0, 0, 0⟩ := by
    simp [conventional, cellOf]
  rw [hC] at hv
  obtain ⟨ha, hb, hc, h1, h2⟩ := hv
  simp only at ha hb hc h1 h2
  have pc : 0 < cd 2 := pos_of_mul_pos_right hc ha.le
  refine ⟨_, rfl, ?_⟩
  constructor
  · unfold documented
    rw [hT, hC]
    intro i j
    fin_cases i <;> fin_cases j <;>
      simp only [dot3, Cell.metric, Fin.sum_univ_three, Fin.zero_eta, Fin.mk_one, Fin.reduceFinMk,
        Matrix.cons_val_zero, Matrix.cons_val_one, Matrix.cons_val]
    all_goals first
      | ring1
  · have e : (0 : ℝ) < cd 0 ^ 3 / 2 * cd 2 := by positivity
    refine lt_of_lt_of_eq e ?_
    simp only [dot3, cross, Matrix.cons_val_zero, Matrix.cons_val_one, Matrix.cons_val]
    ring1

theorem gram_8 (cd : Fin 6 → ℝ) (hv : (conventional 8 (cellOf 8 cd)).Valid) :
    ∃ v, latgen 8 cd = some v ∧ (∀ i j, dot3 (v i) (v j) = documented 8 (cellOf 8 cd) i j) ∧
      0 < dot3 (v 0) (cross (v 1) (v 2)) := by
  have hT : centring 8 = ![![1, 0, 0], ![0, 1, 0], ![0, 0, 1]] := by simp [centring]
  have hC : conventional 8 (cellOf 8 cd) = ⟨cd 0, cd 0 * cd 1, cd 0 * cd 2, 0, 0, 0⟩ := by
    simp [conventional, cellOf]
  rw [hC] at hv
  obtain ⟨ha, hb, hc, h1, h2⟩ := hv
  simp only at ha hb hc h1 h2
  have pb : 0 < cd 1 := pos_of_mul_pos_right hb ha.le
  have pc : 0 < cd 2 := pos_of_mul_pos_right hc ha.le
  refine ⟨_, rfl, ?_⟩
  constructor
  · unfold documented
    rw [hT, hC]
    intro i j
    fin_cases i <;> fin_cases j <;>
      simp only [dot3, Cell.metric, Fin.sum_univ_three, Fin.zero_eta, Fin.mk_one, Fin.reduceFinMk,
        Matrix.cons_val_zero, Matrix.cons_val_one, Matrix.cons_val]
    all_goals first
      | ring1
  · have e : (0 : ℝ) < cd 0 ^ 3 * cd 1 * cd 2 := by positivity
    refine lt_of_lt_of_eq e ?_
    simp only [dot3, cross, Matrix.cons_val_zero, Matrix.cons_val_one, Matrix.cons_val]
    ring1

theorem gram_9 (cd : Fin 6 → ℝ) (hv : (conventional 9 (cellOf 9 cd)).Valid) :
    ∃ v, latgen 9 cd = some v ∧ (∀ i j, dot3 (v i) (v j) = documented 9 (cellOf 9 cd) i j) ∧
      0 < dot3 (v 0) (cross (v 1) (v 2)) := by
  have hT : centring 9 = ![![1 / 2, 1 / 2, 0], ![-1 / 2, 1 / 2, 0], ![0, 0, 1]] := by simp [centring]
  have hC : conventional 9 (cellOf 9 cd) = ⟨cd 0, cd 0 * cd 1, cd 0 * cd 2, 0, 0, 0⟩ := by
    simp [conventional, cellOf]
  rw [hC] at hv
  obtain ⟨ha, hb, hc, h1, h2⟩ := hv
  simp only at ha hb hc h1 h2
  have pb : 0 < cd 1 := pos_of_mul_pos_right hb ha.le
  have pc : 0 < cd 2 := pos_of_mul_pos_right hc ha.le
  refine ⟨_, rfl, ?_⟩
  constructor
  · unfold documented
    rw [hT, hC]
    intro i j
    fin_cases i <;> fin_cases j <;>
      simp only [dot3, Cell.metric, Fin.sum_univ_three, Fin.zero_eta, Fin.mk_one, Fin.reduceFinMk,
        Matrix.cons_val_zero, Matrix.cons_val_one, Matrix.cons_val]
    all_goals first
      | ring1
  · have e : (0 : ℝ) < cd 0 ^ 3 * cd 1 * cd 2 / 2 := by positivity
    refine lt_of_lt_of_eq e ?_
    simp only [dot3, cross, Matrix.cons_val_zero, Matrix.cons_val_one, Matrix.cons_val]
    ring1

theorem gram_m9 (cd : Fin 6 → ℝ) (hv : (conventional (-9) (cellOf (-9) cd)).Valid) :
    ∃ v, latgen (-9) cd = some v ∧ (∀ i j, dot3 (v i) (v j) = documented (-9) (cellOf (-9) cd) i j) ∧
      0 < dot3 (v 0) (cross (v 1) (v 2)) := by
  have hT : centring (-9) = ![![1 / 2, -1 / 2, 0], ![1 / 2, 1 / 2, 0], ![0, 0, 1]] := by simp [centring]
  have hC : conventional (-9) (cellOf (-9) cd) = ⟨cd 0, cd 0 * cd 1, cd 0 * cd 2, 0, 0, 0⟩ := by
    simp [conventional, cellOf]
  rw [hC] at hv
  obtain ⟨ha, hb, hc, h1, h2⟩ := hv
  simp only at ha hb hc h1 h2
  have pb : 0 < cd 1 := pos_of_mul_pos_right hb ha.le
  have pc : 0 < cd 2 := pos_of_mul_pos_right hc ha.le
  refine ⟨_, rfl, ?_⟩
  constructor
  · unfold documented
    rw [hT, hC]
    intro i j
    fin_cases i <;> fin_cases j <;>
      simp only [dot3, Cell.metric, Fin.sum_univ_three, Fin.zero_eta, Fin.mk_one, Fin.reduceFinMk,
        Matrix.cons_val_zero, Matrix.cons_val_one, Matrix.cons_val]
    all_goals first
      | ring1
  · have e : (0 : ℝ) < cd 0 ^ 3 * cd 1 * cd 2 / 2 := by positivity
    refine lt_of_lt_of_eq e ?_
    simp only [dot3, cross, Matrix.cons_val_zero, Matrix.cons_val_one, Matrix.cons_val]
    ring1

theorem gram_91 (cd : Fin 6 → ℝ) (hv : (conventional 91 (cellOf 91 cd)).Valid) :
    ∃ v, latgen 91 cd = some v ∧ (∀ i j, dot3 (v i) (v j) = documented 91 (cellOf 91 cd) i j) ∧
      0 < dot3 (v 0) (cross (v 1) (v 2)) := by
  have hT : centring 91 = ![![1, 0, 0], ![0, 1 / 2, -1 / 2], ![0, 1 / 2, 1 / 2]] := by simp [centring]
  have hC : conventional 91 (cellOf 91 cd) = ⟨cd 0, cd 0 * cd 1, cd 0 * cd 2, 0, 0, 0⟩ := by
    simp [conventional, cellOf]
  rw [hC] at hv
  obtain ⟨ha, hb, hc, h1, h2⟩ := hv
  simp only at ha hb hc h1 h2
  have pb : 0 < cd 1 := pos_of_mul_pos_right hb ha.le
  have pc : 0 < cd 2 := pos_of_mul_pos_right hc ha.le
  refine ⟨_, rfl, ?_⟩
  constructor
  · unfold documented
    rw [hT, hC]
    intro i j
    fin_cases i <;> fin_cases j <;>
      simp only [dot3, Cell.metric, Fin.sum_univ_three, Fin.zero_eta, Fin.mk_one, Fin.reduceFinMk,
        Matrix.cons_val_zero, Matrix.cons_val_one, Matrix.cons_val]
    all_goals first
      | ring1
  · have e : (0 : ℝ) < cd 0 ^ 3 * cd 1 * cd 2 / 2 := by positivity
    refine lt_of_lt_of_eq e ?_
    simp only [dot3, cross, Matrix.cons_val_zero, Matrix.cons_val_one, Matrix.cons_val]
    ring1

theorem gram_10 (cd : Fin 6 → ℝ) (hv : (conventional 10 (cellOf 10 cd)).Valid) :
    ∃ v, latgen 10 cd = some v ∧ (∀ i j, dot3 (v i) (v j) = documented 10 (cellOf 10 cd) i j) ∧
      0 < dot3 (v 0) (cross (v 1) (v 2)) := by
  have hT : centring 10 = ![![1 / 2, 0, 1 / 2], ![1 / 2, 1 / 2, 0], ![0, 1 / 2, 1 / 2]] := by simp [centring]
  have hC : conventional 10 (cellOf 10 cd) = ⟨cd 0, cd 0 * cd 1, cd 0 * cd 2, 0, 0, 0⟩ := by
    simp [conventional, cellOf]
  rw [hC] at hv
  obtain ⟨ha, hb, hc, h1, h2⟩ := hv
  simp only at ha hb hc h1 h2
  have pb : 0 < cd 1 := pos_of_mul_pos_right hb ha.le
  have pc : 0 < cd 2 := pos_of_mul_pos_right hc ha.le
  refine ⟨_, rfl, ?_⟩
  constructor
  · unfold documented
    rw [hT, hC]
    intro i j
    fin_cases i <;> fin_cases j <;>
      simp only [dot3, Cell.metric, Fin.sum_univ_three, Fin.zero_eta, Fin.mk_one, Fin.reduceFinMk,
        Matrix.cons_val_zero, Matrix.cons_val_one, Matrix.cons_val]
    all_goals first
      | ring1
  · have e : (0 : ℝ) < cd 0 ^ 3 * cd 1 * cd 2 / 4 := by positivity
    refine lt_of_lt_of_eq e ?_
    simp only [dot3, cross, Matrix.cons_val_zero, Matrix.cons_val_one, Matrix.cons_val]
    ring1

theorem gram_11 (cd : Fin 6 → ℝ) (hv : (conventional 11 (cellOf 11 cd)).Valid) :
    ∃ v, latgen 11 cd = some v ∧ (∀ i j, dot3 (v i) (v j) = documented 11 (cellOf 11 cd) i j) ∧
      0 < dot3 (v 0) (cross (v 1) (v 2)) := by
  have hT : centring 11 = ![![1 / 2, 1 / 2, 1 / 2], ![-1 / 2, 1 / 2, 1 / 2], ![-1 / 2, -1 / 2, 1 / 2]] := by simp [centring]
  have hC : conventional 11 (cellOf 11 cd) = ⟨cd 0, cd 0 * cd 1, cd 0 * cd 2, 0, 0, 0⟩ := by
    simp [conventional, cellOf]
  rw [hC] at hv
  obtain ⟨ha, hb, hc, h1, h2⟩ := hv
  simp only at ha hb hc h1 h2
  have pb : 0 < cd 1 := pos_of_mul_pos_right hb ha.le
  have pc : 0 < cd 2 := pos_of_mul_pos_right hc ha.le
  refine ⟨_, rfl, ?_⟩
  constructor
  · unfold documented
    rw [hT, hC]
    intro i j
    fin_cases i <;> fin_cases j <;>
      simp only [dot3, Cell.metric, Fin.sum_univ_three, Fin.zero_eta, Fin.mk_one, Fin.reduceFinMk,
        Matrix.cons_val_zero, Matrix.cons_val_one, Matrix.cons_val]
    all_goals first
      | ring1
  · have e : (0 : ℝ) < cd 0 ^ 3 * cd 1 * cd 2 / 2 := by positivity
    refine lt_of_lt_of_eq e ?_
    simp only [dot3, cross, Matrix.cons_val_zero, Matrix.cons_val_one, Matrix.cons_val]
    ring1

theorem gram_12 (cd : Fin 6 → ℝ) (hv : (conventional 12 (cellOf 12 cd)).Valid) :
    ∃ v, latgen 12 cd = some v ∧ (∀ i j, dot3 (v i) (v j) = documented 12 (cellOf 12 cd) i j) ∧
      0 < dot3 (v 0) (cross (v 1) (v 2)) := by
  have hT : centring 12 = ![![1, 0, 0], ![0, 1, 0], ![0, 0, 1]] := by simp [centring]
  have hC : conventional 12 (cellOf 12 cd) = ⟨cd 0, cd 0 * cd 1, cd 0 * cd 2, 0, 0, cd 3⟩ := by
    simp [conventional, cellOf]
  rw [hC] at hv
  obtain ⟨ha, hb, hc, h1, h2⟩ := hv
  simp only at ha hb hc h1 h2
  have pb : 0 < cd 1 := pos_of_mul_pos_right hb ha.le
  have pc : 0 < cd 2 := pos_of_mul_pos_right hc ha.le
  refine ⟨_, rfl, ?_⟩
  have hs : Real.sqrt (1 - cd 3 ^ 2) ^ 2 = 1 - cd 3 ^ 2 := Real.sq_sqrt (by nlinarith)
  have p : 0 < Real.sqrt (1 - cd 3 ^ 2) := Real.sqrt_pos.2 (by nlinarith)
  generalize Real.sqrt (1 - cd 3 ^ 2) = s at *
  constructor
  · unfold documented
    rw [hT, hC]
    intro i j
    fin_cases i <;> fin_cases j <;>
      simp only [dot3, Cell.metric, Fin.sum_univ_three, Fin.zero_eta, Fin.mk_one, Fin.reduceFinMk,
        Matrix.cons_val_zero, Matrix.cons_val_one, Matrix.cons_val]
    all_goals first
      | ring1
      | linear_combination cd 0 ^ 2 * cd 1 ^ 2 * hs
      | linear_combination cd 0 ^ 2 * cd 2 ^ 2 * hs
  · have e : (0 : ℝ) < cd 0 ^ 3 * cd 1 * cd 2 * s := by positivity
    refine lt_of_lt_of_eq e ?_
    simp only [dot3, cross, Matrix.cons_val_zero, Matrix.cons_val_one, Matrix.cons_val]
    ring1

theorem gram_m12 (cd : Fin 6 → ℝ) (hv : (conventional (-12) (cellOf (-12) cd)).Valid) :
    ∃ v, latgen (-12) cd = some v ∧ (∀ i j, dot3 (v i) (v j) = documented (-12) (cellOf (-12) cd) i j) ∧
      0 < dot3 (v 0) (cross (v 1) (v 2)) := by
  have hT : centring (-12) = ![![1, 0, 0], ![0, 1, 0], ![0, 0, 1]] := by simp [centring]
  have hC : conventional (-12) (cellOf (-12) cd) = ⟨cd 0, cd 0 * cd 1, cd 0 * cd 2, 0, cd 4, 0⟩ := by
    simp [conventional, cellOf]
  rw [hC] at hv
  obtain ⟨ha, hb, hc, h1, h2⟩ := hv
  simp only at ha hb hc h1 h2
  have pb : 0 < cd 1 := pos_of_mul_pos_right hb ha.le
  have pc : 0 < cd 2 := pos_of_mul_pos_right hc ha.le
  refine ⟨_, rfl, ?_⟩
  have hs : Real.sqrt (1 - cd 4 ^ 2) ^ 2 = 1 - cd 4 ^ 2 := Real.sq_sqrt (by nlinarith)
  have p : 0 < Real.sqrt (1 - cd 4 ^ 2) := Real.sqrt_pos.2 (by nlinarith)
  generalize Real.sqrt (1 - cd 4 ^ 2) = s at *
  constructor
  · unfold documented
    rw [hT, hC]
    intro i j
    fin_cases i <;> fin_cases j <;>
      simp only [dot3, Cell.metric, Fin.sum_univ_three, Fin.zero_eta, Fin.mk_one, Fin.reduceFinMk,
        Matrix.cons_val_zero, Matrix.cons_val_one, Matrix.cons_val]
    all_goals first
      | ring1
      | linear_combination cd 0 ^ 2 * cd 1 ^ 2 * hs
      | linear_combination cd 0 ^ 2 * cd 2 ^ 2 * hs
  · have e : (0 : ℝ) < cd 0 ^ 3 * cd 1 * cd 2 * s := by positivity
    refine lt_of_lt_of_eq e ?_
    simp only [dot3, cross, Matrix.cons_val_zero, Matrix.cons_val_one, Matrix.cons_val]
    ring1

theorem gram_13 (cd : Fin 6 → ℝ) (hv : (conventional 13 (cellOf 13 cd)).Valid) :
    ∃ v, latgen 13 cd = some v ∧ (∀ i j, dot3 (v i) (v j) = documented 13 (cellOf 13 cd) i j) ∧
      0 < dot3 (v 0) (cross (v 1) (v 2)) := by
  have hT : centring 13 = ![![1 / 2, 0, -1 / 2], ![0, 1, 0], ![1 / 2, 0, 1 / 2]] := by simp [centring]
  have hC : conventional 13 (cellOf 13 cd) = ⟨cd 0, cd 0 * cd 1, cd 0 * cd 2, 0, 0, cd 3⟩ := by
    simp [conventional, cellOf]
  rw [hC] at hv
  obtain ⟨ha, hb, hc, h1, h2⟩ := hv
  simp only at ha hb hc h1 h2
  have pb : 0 < cd 1 := pos_of_mul_pos_right hb ha.le
  have pc : 0 < cd 2 := pos_of_mul_pos_right hc ha.le
  refine ⟨_, rfl, ?_⟩
  have hs : Real.sqrt (1 - cd 3 ^ 2) ^ 2 = 1 - cd 3 ^ 2 := Real.sq_sqrt (by nlinarith)
  have p : 0 < Real.sqrt (1 - cd 3 ^ 2) := Real.sqrt_pos.2 (by nlinarith)
  generalize Real.sqrt (1 - cd 3 ^ 2) = s at *
  constructor
  · unfold documented
    rw [hT, hC]
    intro i j
    fin_cases i <;> fin_cases j <;>
      simp only [dot3, Cell.metric, Fin.sum_univ_three, Fin.zero_eta, Fin.mk_one, Fin.reduceFinMk,
        Matrix.cons_val_zero, Matrix.cons_val_one, Matrix.cons_val]
    all_goals first
      | ring1
      | linear_combination cd 0 ^ 2 * cd 1 ^ 2 * hs
      | linear_combination cd 0 ^ 2 * cd 2 ^ 2 * hs
  · have e : (0 : ℝ) < cd 0 ^ 3 * cd 1 * cd 2 * s / 2 := by positivity
    refine lt_of_lt_of_eq e ?_
    simp only [dot3, cross, Matrix.cons_val_zero, Matrix.cons_val_one, Matrix.cons_val]
    ring1

theorem gram_m13 (cd : Fin 6 → ℝ) (hv : (conventional (-13) (cellOf (-13) cd)).Valid) :
    ∃ v, latgen (-13) cd = some v ∧ (∀ i j, dot3 (v i) (v j) = documented (-13) (cellOf (-13) cd) i j) ∧
      0 < dot3 (v 0) (cross (v 1) (v 2)) := by
  have hT : centring (-13) = ![![1 / 2, 1 / 2, 0], ![-1 / 2, 1 / 2, 0], ![0, 0, 1]] := by simp [centring]
  have hC : conventional (-13) (cellOf (-13) cd) = ⟨cd 0, cd 0 * cd 1, cd 0 * cd 2, 0, cd 4, 0⟩ := by
    simp [conventional, cellOf]
  rw [hC] at hv
  obtain ⟨ha, hb, hc, h1, h2⟩ := hv
  simp only at ha hb hc h1 h2
  have pb : 0 < cd 1 := pos_of_mul_pos_right hb ha.le
  have pc : 0 < cd 2 := pos_of_mul_pos_right hc ha.le
  refine ⟨_, rfl, ?_⟩
  have hs : Real.sqrt (1 - cd 4 ^ 2) ^ 2 = 1 - cd 4 ^ 2 := Real.sq_sqrt (by nlinarith)
  have p : 0 < Real.sqrt (1 - cd 4 ^ 2) := Real.sqrt_pos.2 (by nlinarith)
  generalize Real.sqrt (1 - cd 4 ^ 2) = s at *
  constructor
  · unfold documented
    rw [hT, hC]
    intro i j
    fin_cases i <;> fin_cases j <;>
      simp only [dot3, Cell.metric, Fin.sum_univ_three, Fin.zero_eta, Fin.mk_one, Fin.reduceFinMk,
        Matrix.cons_val_zero, Matrix.cons_val_one, Matrix.cons_val]
    all_goals first
      | ring1
      | linear_combination cd 0 ^ 2 * cd 1 ^ 2 * hs
      | linear_combination cd 0 ^ 2 * cd 2 ^ 2 * hs
  · have e : (0 : ℝ) < cd 0 ^ 3 * cd 1 * cd 2 * s / 2 := by positivity
    refine lt_of_lt_of_eq e ?_
    simp only [dot3, cross, Matrix.cons_val_zero, Matrix.cons_val_one, Matrix.cons_val]
    ring1

theorem gram_14 (cd : Fin 6 → ℝ) (hv : (conventional 14 (cellOf 14 cd)).Valid) :
    ∃ v, latgen 14 cd = some v ∧ (∀ i j, dot3 (v i) (v j) = documented 14 (cellOf 14 cd) i j) ∧
      0 < dot3 (v 0) (cross (v 1) (v 2)) := by
  have hT : centring 14 = ![![1, 0, 0], ![0, 1, 0], ![0, 0, 1]] := by simp [centring]
  have hC : conventional 14 (cellOf 14 cd) = ⟨cd 0, cd 0 * cd 1, cd 0 * cd 2, cd 3, cd 4, cd 5⟩ := by
    simp [conventional, cellOf]
  rw [hC] at hv
  obtain ⟨ha, hb, hc, h1, h2⟩ := hv
  simp only at ha hb hc h1 h2
  have pb : 0 < cd 1 := pos_of_mul_pos_right hb ha.le
  have pc : 0 < cd 2 := pos_of_mul_pos_right hc ha.le
  refine ⟨_, rfl, ?_⟩
  have hs : Real.sqrt (1 - cd 5 ^ 2) ^ 2 = 1 - cd 5 ^ 2 := Real.sq_sqrt (by nlinarith)
  have p : 0 < Real.sqrt (1 - cd 5 ^ 2) := Real.sqrt_pos.2 (by nlinarith)
  have hW : Real.sqrt (1 + 2 * cd 3 * cd 4 * cd 5 - cd 3 ^ 2 - cd 4 ^ 2 - cd 5 ^ 2) ^ 2 = 1 + 2 * cd 3 * cd 4 * cd 5 - cd 3 ^ 2 - cd 4 ^ 2 - cd 5 ^ 2 := Real.sq_sqrt h2.le
  have pW : 0 < Real.sqrt (1 + 2 * cd 3 * cd 4 * cd 5 - cd 3 ^ 2 - cd 4 ^ 2 - cd 5 ^ 2) := Real.sqrt_pos.2 h2
  generalize Real.sqrt (1 - cd 5 ^ 2) = s at *
  generalize Real.sqrt (1 + 2 * cd 3 * cd 4 * cd 5 - cd 3 ^ 2 - cd 4 ^ 2 - cd 5 ^ 2) = w at *
  have hx1 : s * ((cd 3 - cd 4 * cd 5) / s) = cd 3 - cd 4 * cd 5 := by field_simp
  have hx2 : ((cd 3 - cd 4 * cd 5) / s) ^ 2 + (w / s) ^ 2 = 1 - cd 4 ^ 2 := by
    rw [div_pow, div_pow, ← add_div, hW, div_eq_iff (by positivity), hs]
    ring
  have pe : 0 < w / s := by positivity
  generalize (cd 3 - cd 4 * cd 5) / s = e1 at *
  generalize w / s = e2 at *
  constructor
  · unfold documented
    rw [hT, hC]
    intro i j
    fin_cases i <;> fin_cases j <;>
      simp only [dot3, Cell.metric, Fin.sum_univ_three, Fin.zero_eta, Fin.mk_one, Fin.reduceFinMk,
        Matrix.cons_val_zero, Matrix.cons_val_one, Matrix.cons_val]
    all_goals first
      | ring1
      | linear_combination cd 0 ^ 2 * cd 1 ^ 2 * hs
      | linear_combination cd 0 ^ 2 * cd 1 * cd 2 * hx1
      | linear_combination cd 0 ^ 2 * cd 2 ^ 2 * hx2
  · have e : (0 : ℝ) < cd 0 ^ 3 * cd 1 * cd 2 * s * e2 := by positivity
    refine lt_of_lt_of_eq e ?_
    simp only [dot3, cross, Matrix.cons_val_zero, Matrix.cons_val_one, Matrix.cons_val]
    ring1

theorem latgen_gram (ibrav : Int) (hi : Supported ibrav) (cd : Fin 6 → ℝ)
    (hv : (conventional ibrav (cellOf ibrav cd)).Valid) :
    ∃ v, latgen ibrav cd = some v ∧ (∀ i j, dot3 (v i) (v j) = documented ibrav (cellOf ibrav cd) i j) ∧
      0 < dot3 (v 0) (cross (v 1) (v 2)) := by
  simp only [Supported, List.mem_cons, List.not_mem_nil, or_false] at hi
  rcases hi with rfl | rfl | rfl | rfl | rfl | rfl | rfl | rfl | rfl | rfl | rfl | rfl | rfl | rfl | rfl |
    rfl | rfl | rfl | rfl | rfl
  · exact gram_1 cd hv
  · exact gram_2 cd hv
  · exact gram_3 cd hv
  · exact gram_m3 cd hv
  · exact gram_4 cd hv
  · exact gram_5 cd hv
  · exact gram_m5 cd hv
  · exact gram_6 cd hv
  · exact gram_7 cd hv
  · exact gram_8 cd hv
  · exact gram_9 cd hv
  · exact gram_m9 cd hv
  · exact gram_91 cd hv
  · exact gram_10 cd hv
  · exact gram_11 cd hv
  · exact gram_12 cd hv
  · exact gram_m12 cd hv
  · exact gram_13 cd hv
  · exact gram_m13 cd hv
  · exact gram_14 cd hv


/-- Cell with all lengths multiplied by `u`. -/
def Cell.scale (u : ℝ) (p : Cell) : Cell := { p with a := u * p.a, b := u * p.b, c := u * p.c }

theorem Cell.Valid.scale {p : Cell} (h : p.Valid) (u : ℝ) (hu : 0 < u) : (p.scale u).Valid := by
  obtain ⟨ha, hb, hc, h1, h2⟩ := h
  exact ⟨mul_pos hu ha, mul_pos hu hb, mul_pos hu hc, h1, h2⟩

theorem conventional_scale (ibrav : Int) (p : Cell) (u : ℝ) :
    conventional ibrav (p.scale u) = (conventional ibrav p).scale u := by
  unfold conventional
  split_ifs <;> rfl

/-- Number of lattice points per conventional cell. -/
def multiplicity (ibrav : Int) : ℝ :=
  if ibrav = 2 ∨ ibrav = 10 then 4
  else if ibrav ∈ ([3, -3, 7, 9, -9, 91, 11, 13, -13] : List Int) then 2 else 1

/-- Volume of the conventional cell. -/
noncomputable def Cell.volume (C : Cell) : ℝ :=
  C.a * C.b * C.c * Real.sqrt (1 + 2 * C.cosbc * C.cosac * C.cosab - C.cosbc ^ 2 - C.cosac ^ 2 -
    C.cosab ^ 2)

theorem det_centring (ibrav : Int) (hi : Supported ibrav) :
    (Matrix.of (centring ibrav)).det ^ 2 * multiplicity ibrav ^ 2 = 1 := by
  simp only [Supported, List.mem_cons, List.not_mem_nil, or_false] at hi
  rw [Matrix.det_fin_three]
  rcases hi with rfl | rfl | rfl | rfl | rfl | rfl | rfl | rfl | rfl | rfl | rfl | rfl | rfl | rfl | rfl |
    rfl | rfl | rfl | rfl | rfl <;>
  simp [centring, multiplicity] <;> norm_num

theorem det_metric (C : Cell) (h : 0 ≤ 1 + 2 * C.cosbc * C.cosac * C.cosab - C.cosbc ^ 2 - C.cosac ^ 2 -
    C.cosab ^ 2) : (Matrix.of C.metric).det = C.volume ^ 2 := by
  rw [Matrix.det_fin_three, Cell.volume, mul_pow, Real.sq_sqrt h]
  simp [Cell.metric]
  ring

theorem det_documented (ibrav : Int) (p : Cell) :
    (Matrix.of (documented ibrav p)).det =
      (Matrix.of (centring ibrav)).det ^ 2 * (Matrix.of (conventional ibrav p).metric).det := by
  have : Matrix.of (documented ibrav p) = Matrix.of (centring ibrav) *
      Matrix.of (conventional ibrav p).metric * (Matrix.of (centring ibrav)).transpose := by
    funext i j
    simp only [Matrix.mul_apply, Matrix.of_apply, Matrix.transpose_apply, documented,
      Fin.sum_univ_three]
    ring
  rw [this, Matrix.det_mul, Matrix.det_mul, Matrix.det_transpose]
  ring

theorem volume_of_gram (ibrav : Int) (hi : Supported ibrav) (p : Cell)
    (hv : (conventional ibrav p).Valid) (v : M3)
    (hg : ∀ i j, dot3 (v i) (v j) = documented ibrav p i j) :
    volume (v 0) (v 1) (v 2) * multiplicity ibrav = (conventional ibrav p).volume := by
  have e1 : dot3 (v 0) (cross (v 1) (v 2)) ^ 2 = (Matrix.of (documented ibrav p)).det := by
    have : documented ibrav p = fun i j => dot3 (v i) (v j) := by
      funext i j; exact (hg i j).symm
    rw [this, Matrix.det_fin_three]
    simp [dot3, cross]
    ring
  obtain ⟨ha, hb, hc, h1, h2⟩ := hv
  rw [det_documented, det_metric _ h2.le] at e1
  have hm : 0 ≤ multiplicity ibrav := by
    unfold multiplicity; split_ifs <;> norm_num
  have hV : 0 ≤ (conventional ibrav p).volume := by
    unfold Cell.volume; positivity
  refine (sq_eq_sq₀ (mul_nonneg (abs_nonneg _) hm) hV).1 ?_
  rw [mul_pow, volume, sq_abs, e1]
  linear_combination (conventional ibrav p).volume ^ 2 * det_centring ibrav hi

/-- What the documentation promises about a matrix of primitive vectors. -/
def HasGeometry (ibrav : Int) (p : Cell) (v : M3) : Prop :=
  (∀ i j, dot3 (v i) (v j) = documented ibrav p i j) ∧
    volume (v 0) (v 1) (v 2) * multiplicity ibrav = (conventional ibrav p).volume ∧
    0 < dot3 (v 0) (cross (v 1) (v 2))

theorem latgen_geometry (ibrav : Int) (hi : Supported ibrav) (cd : Fin 6 → ℝ) (p : Cell)
    (hp : conventional ibrav (cellOf ibrav cd) = conventional ibrav p)
    (hv : (conventional ibrav p).Valid) : ∃ v, latgen ibrav cd = some v ∧ HasGeometry ibrav p v := by
  obtain ⟨v, h1, h2, h3⟩ := latgen_gram ibrav hi cd (by rw [hp]; exact hv)
  have hd : documented ibrav (cellOf ibrav cd) = documented ibrav p := by
    funext i j
    unfold documented
    rw [hp]
  have hg : ∀ i j, dot3 (v i) (v j) = documented ibrav p i j := fun i j => by rw [h2, hd]
  exact ⟨v, h1, hg, volume_of_gram ibrav hi p hv v hg, h3⟩

/-- C31 (traditional constants in angstrom). For every supported Bravais lattice and all lattice
constants of a nondegenerate cell, `primitives` returns right-handed vectors with the documented
lengths, angles and cell volume, in angstrom or (`bohr=True`) in units of the Bohr radius `a0`. -/
theorem C31_primitives (ibrav : Int) (hi : Supported ibrav) (a0 : ℝ) (h0 : 0 < a0) (p : Cell)
    (hv : (conventional ibrav p).Valid) (bohr : Bool) (cell : Option (M3 × CellUnits)) :
    ∃ v, (primitives ibrav a0 p.a p.b p.c p.cosbc p.cosac p.cosab none bohr cell).1 = some v ∧
      HasGeometry ibrav (p.scale (if bohr then 1 / a0 else 1)) v := by
  have hu : (0 : ℝ) < if bohr then 1 / a0 else 1 := by split <;> positivity
  have ha : p.a ≠ 0 := by
    have h1 : 0 < (conventional ibrav p).a := hv.1
    have h2 : (conventional ibrav p).a = p.a := by unfold conventional; split_ifs <;> rfl
    rw [h2] at h1
    exact h1.ne'
  have hne : ibrav ≠ 0 := by
    rintro rfl
    simp [Supported] at hi
  have hv' : (conventional ibrav (p.scale (if bohr then 1 / a0 else 1))).Valid := by
    rw [conventional_scale]; exact hv.scale _ hu
  simp only [primitives, hne, if_false, Option.getD_none]
  refine latgen_geometry ibrav hi _ _ ?_ hv'
  have e1 : p.a / a0 * a0 = p.a := by field_simp
  have e2 : ∀ x : ℝ, p.a / a0 * (x / p.a) = x / a0 := by intro x; field_simp
  have e3 : ∀ x : ℝ, p.a * (x / p.a) = x := by intro x; field_simp
  have e4 : ∀ x : ℝ, a0⁻¹ * x = x / a0 := by intro x; ring
  simp only [Supported, List.mem_cons, List.not_mem_nil, or_false] at hi
  rcases hi with rfl | rfl | rfl | rfl | rfl | rfl | rfl | rfl | rfl | rfl | rfl | rfl | rfl | rfl | rfl |
    rfl | rfl | rfl | rfl | rfl <;> cases bohr <;>
  simp [conventional, cellOf, convert, celldmOf, Cell.scale, Function.update, e1, e2, e3, e4]

/-- C31 (constants given by `celldm`, first element in units of the Bohr radius). -/
theorem C31_celldm (ibrav : Int) (hi : Supported ibrav) (a0 : ℝ) (h0 : 0 < a0) (cd : Fin 6 → ℝ)
    (hv : (conventional ibrav (cellOf ibrav cd)).Valid) (bohr : Bool) (cell : Option (M3 × CellUnits))
    (a b c cosbc cosac cosab : ℝ) :
    ∃ v, (primitives ibrav a0 a b c cosbc cosac cosab (some cd) bohr cell).1 = some v ∧
      HasGeometry ibrav ((cellOf ibrav cd).scale (if bohr then 1 else a0)) v := by
  have hu : (0 : ℝ) < if bohr then 1 else a0 := by split <;> positivity
  have hne : ibrav ≠ 0 := by
    rintro rfl
    simp [Supported] at hi
  simp only [primitives, hne, if_false, Option.getD_some]
  refine latgen_geometry ibrav hi _ _ ?_ (by rw [conventional_scale]; exact hv.scale _ hu)
  congr 1
  unfold cellOf
  split_ifs <;> simp_all [Cell.scale, convert, Function.update] <;>
    exact ⟨by ring, by ring, by ring⟩

/-- C31 (trigonal lattice): the threefold axis of `ibrav = 5` is the z axis, the one of `ibrav = -5` is the
space diagonal. -/
theorem C31_threefold_axis (cd : Fin 6 → ℝ) (v w : M3) (hv : latgen 5 cd = some v)
    (hw : latgen (-5) cd = some w) :
    (v 0 0 + v 1 0 + v 2 0 = 0 ∧ v 0 1 + v 1 1 + v 2 1 = 0) ∧
    (w 0 0 + w 1 0 + w 2 0 = w 0 1 + w 1 1 + w 2 1 ∧
      w 0 1 + w 1 1 + w 2 1 = w 0 2 + w 1 2 + w 2 2) := by
  have hv' : latgen 5 cd = some _ := rfl
  have hw' : latgen (-5) cd = some _ := rfl
  rw [hv] at hv'
  rw [hw] at hw'
  rw [Option.some.inj hv', Option.some.inj hw']
  refine ⟨⟨?_, ?_⟩, ?_, ?_⟩ <;>
  simp only [Matrix.cons_val_zero, Matrix.cons_val_one, Matrix.cons_val] <;> ring

/-- C31 (free lattice, `ibrav=0`): the given vectors in the requested units. -/
theorem C31_free (a0 : ℝ) (h0 : 0 < a0) (r : M3) (bohr : Bool) (a b c cosbc cosac cosab : ℝ)
    (cd : Fin 6 → ℝ) (i j : Fin 3) :
    (∃ v, (primitives 0 a0 a b c cosbc cosac cosab (some cd) bohr (some (r, .bohr))).1 = some v ∧
      v i j = r i j * if bohr then 1 else a0) ∧
    (∃ v, (primitives 0 a0 a b c cosbc cosac cosab (some cd) bohr (some (r, .angstrom))).1 = some v ∧
      v i j * (if bohr then a0 else 1) = r i j) ∧
    (∃ v, (primitives 0 a0 a b c cosbc cosac cosab (some cd) bohr (some (r, .alat))).1 = some v ∧
      v i j = r i j * (cd 0 * if bohr then 1 else a0)) := by
  refine ⟨⟨_, rfl, ?_⟩, ⟨_, rfl, ?_⟩, ⟨_, rfl, ?_⟩⟩ <;> cases bohr <;> simp [freeCell, convert] <;> field_simp

example : Supported (-5) ∧ (conventional (-5) ⟨3, 3, 3, 0, 0, 1 / 4⟩).Valid := by
  refine ⟨by simp [Supported], ?_⟩
  simp only [conventional, Cell.Valid]
  norm_num

example : Supported 14 ∧ (conventional 14 ⟨3, 4, 5, 1 / 4, -1 / 5, 1 / 3⟩).Valid := by
  refine ⟨by simp [Supported], ?_⟩
  simp only [conventional, Cell.Valid]
  norm_num

/-! ## C66 -/

/-- C66 does not hold: `primitives` multiplies the first element of the caller's list `celldm` by the Bohr
radius in place, so that a second call with the same list returns a different lattice. -/
theorem C66_repeat_violated (a0 : ℝ) (h0 : a0 ≠ 0) (h1 : a0 ≠ 1) (cell : Option (M3 × CellUnits)) :
    let first := primitives 1 a0 1 1 1 0 0 0 (some fun _ => 1) false cell
    (primitives 1 a0 1 1 1 0 0 0 first.2 false cell).1 ≠ first.1 := by
  intro first h
  have e1 : first.1 = latgen 1 (convert false a0 fun _ => 1) := by
    simp [first, primitives]
  have e2 : (primitives 1 a0 1 1 1 0 0 0 first.2 false cell).1 =
      latgen 1 (convert false a0 (convert false a0 fun _ => 1)) := by
    simp [first, primitives]
  rw [e1, e2] at h
  simp only [latgen, if_true, Option.some.injEq] at h
  have := congrFun (congrFun h 0) 0
  simp [convert] at this
  exact h1 (mul_left_cancel₀ h0 (by rw [this, mul_one]))

example := C66_repeat_violated 2 (by norm_num) (by norm_num) none

/-- C66 with `bohr=True` or without `celldm`: calls can be repeated. Missing: `bohr=False` with `celldm`,
where the property does not hold. -/
theorem C66_repeat_partial (ibrav : Int) (a0 a b c cosbc cosac cosab : ℝ) (celldm : Option (Fin 6 → ℝ))
    (bohr : Bool) (cell : Option (M3 × CellUnits)) (h : bohr = true ∨ celldm = none) :
    (primitives ibrav a0 a b c cosbc cosac cosab celldm bohr cell).2 = celldm := by
  rcases h with rfl | rfl
  · cases celldm <;> simp [primitives, convert]
  · simp [primitives]

example := C66_repeat_partial 4 1 3 3 10 0 0 0 none false none (Or.inr rfl)

end Verif.Bravais
