import Verif.Phon.GramSchmidt

/-!
# Rotation sum rule and forces upon rotation (C183)
-/

namespace Verif.Phon.BornHuang

open Verif.Voronoi (V3)

/-- Specification: displacement `ω × p` of an atom at `p` if the crystal is rotated infinitesimally. -/
def rotated (ω p : Fin 3 → ℝ) : Fin 3 → ℝ :=
  ![ω 1 * p 2 - ω 2 * p 1, ω 2 * p 0 - ω 0 * p 2, ω 0 * p 1 - ω 1 * p 0]

/-- Specification: Cartesian coordinates of a lattice vector. -/
def cart (a : Fin 3 → Fin 3 → ℝ) (R : V3) : Fin 3 → ℝ := fun x => R.1 * a 0 x + R.2.1 * a 1 x + R.2.2 * a 2 x

variable {nR nat : ℕ}

/-- Specification: force in direction `x` on atom `k` of the unit cell at the origin if the crystal is rotated. -/
def rotationForce (R : Fin nR → Fin 3 → ℝ) (r : Fin nat → Fin 3 → ℝ) (C : Index nR nat → ℝ) (ω : Fin 3 → ℝ)
    (k : Fin nat) (x : Fin 3) : ℝ :=
  -∑ n, ∑ l, ∑ y, C (n, (k, x), (l, y)) * rotated ω (fun z => R n z + r l z) y

/-- `Σ C[n, k, x, l, y] (R[n, z] + r[l, z])` over lattice vectors and second atoms. -/
def moment (R : Fin nR → Fin 3 → ℝ) (r : Fin nat → Fin 3 → ℝ) (C : Index nR nat → ℝ) (k : Fin nat)
    (x y z : Fin 3) : ℝ :=
  ∑ n, ∑ l, C (n, (k, x), (l, y)) * (R n z + r l z)

theorem rotationForce_eq (R : Fin nR → Fin 3 → ℝ) (r : Fin nat → Fin 3 → ℝ) (C : Index nR nat → ℝ) (ω : Fin 3 → ℝ)
    (k : Fin nat) (x : Fin 3) :
    rotationForce R r C ω k x = ω 0 * (moment R r C k x 1 2 - moment R r C k x 2 1) +
      ω 1 * (moment R r C k x 2 0 - moment R r C k x 0 2) + ω 2 * (moment R r C k x 0 1 - moment R r C k x 1 0) := by
  unfold rotationForce moment
  simp only [← Finset.sum_sub_distrib, Finset.mul_sum, ← Finset.sum_add_distrib, ← Finset.sum_neg_distrib]
  refine Finset.sum_congr rfl fun n _ => Finset.sum_congr rfl fun l _ => ?_
  rw [Fin.sum_univ_three]
  simp only [rotated, Matrix.cons_val_zero, Matrix.cons_val_one, Matrix.cons_val]
  ring

/-- C183: the sum rule of Born and Huang, by which a rotation of the crystal leads to no force, exchanges the direction
and the position of the *same* atom. -/
theorem C183_born_huang (R : Fin nR → Fin 3 → ℝ) (r : Fin nat → Fin 3 → ℝ) (C : Index nR nat → ℝ) :
    (∀ ω k x, rotationForce R r C ω k x = 0) ↔
      ∀ k x y z, ∑ n, ∑ l, (C (n, (k, x), (l, y)) * (R n z + r l z) - C (n, (k, x), (l, z)) * (R n y + r l y)) = 0 := by
  have e : ∀ k x y z, ∑ n, ∑ l, (C (n, (k, x), (l, y)) * (R n z + r l z) -
      C (n, (k, x), (l, z)) * (R n y + r l y)) = moment R r C k x y z - moment R r C k x z y := by
    intro k x y z
    unfold moment
    simp only [Finset.sum_sub_distrib]
  simp only [e]
  constructor
  · intro h k x
    have h0 := h ![1, 0, 0] k x
    have h1 := h ![0, 1, 0] k x
    have h2 := h ![0, 0, 1] k x
    rw [rotationForce_eq] at h0 h1 h2
    simp only [Matrix.cons_val_zero, Matrix.cons_val_one, Matrix.cons_val] at h0 h1 h2
    intro y z
    fin_cases y <;> fin_cases z <;> simp only [Fin.zero_eta, Fin.mk_one, Fin.reduceFinMk] <;> linarith
  · intro h ω k x
    rw [rotationForce_eq, h k x 1 2, h k x 2 0, h k x 0 1]
    ring

section Cell

variable {Rint : Fin nR → V3} {a : Fin 3 → Fin 3 → ℝ}

theorem sum_minus (h : Symmetric Rint) (f : Fin nR → ℝ) : ∑ n, f (minusR Rint n) = ∑ n, f n :=
  Finset.sum_bij' (fun i _ => minusR Rint i) (fun i _ => minusR Rint i) (by simp) (by simp)
    (fun i _ => minusR_minusR h i) (fun i _ => minusR_minusR h i) (fun _ _ => rfl)

theorem cart_minus (h : Symmetric Rint) (n : Fin nR) (x : Fin 3) :
    cart a (Rint (minusR Rint n)) x = -cart a (Rint n) x := by
  unfold cart
  rw [minusR_spec h]
  push_cast
  ring

/-- Sum over all atoms of the unit cell. -/
theorem moment_antisymm (h : Symmetric Rint) (r : Fin nat → Fin 3 → ℝ) {C : Index nR nat → ℝ}
    (hC : Reciprocal Rint C) (hasr : ∀ k x y, ∑ n, ∑ l, C (n, (k, x), (l, y)) = 0) (x y z : Fin 3) :
    ∑ k, moment (fun n => cart a (Rint n)) r C k x y z = -∑ k, moment (fun n => cart a (Rint n)) r C k y x z := by
  have e : ∀ x y, ∑ k, moment (fun n => cart a (Rint n)) r C k x y z =
      ∑ n, cart a (Rint n) z * ∑ k, ∑ l, C (n, (k, x), (l, y)) := by
    intro x y
    have e1 : ∀ k, moment (fun n => cart a (Rint n)) r C k x y z =
        (∑ n, cart a (Rint n) z * ∑ l, C (n, (k, x), (l, y))) + ∑ n, ∑ l, C (n, (k, x), (l, y)) * r l z := by
      intro k
      unfold moment
      rw [← Finset.sum_add_distrib]
      refine Finset.sum_congr rfl fun n _ => ?_
      rw [Finset.mul_sum, ← Finset.sum_add_distrib]
      exact Finset.sum_congr rfl fun l _ => by ring
    simp only [e1]
    rw [Finset.sum_add_distrib, Finset.sum_comm]
    have e2 : ∑ k, ∑ n, ∑ l, C (n, (k, x), (l, y)) * r l z = 0 := by
      have e3 : ∑ k, ∑ n, ∑ l, C (n, (k, x), (l, y)) * r l z =
          ∑ l, (∑ n, ∑ k, C (n, (l, y), (k, x))) * r l z := by
        rw [Finset.sum_comm]
        simp only [Finset.sum_mul]
        rw [Finset.sum_comm (s := Finset.univ (α := Fin nat))]
        rw [← sum_minus h]
        refine Finset.sum_congr rfl fun n _ => ?_
        rw [Finset.sum_comm]
        refine Finset.sum_congr rfl fun l _ => Finset.sum_congr rfl fun k _ => ?_
        rw [← hC n _ (minusR_spec h n)]
      rw [e3]
      exact Finset.sum_eq_zero fun l _ => by rw [hasr, zero_mul]
    rw [e2, add_zero]
    exact Finset.sum_congr rfl fun n _ => (Finset.mul_sum _ _ _).symm
  rw [e x y, e y x, ← sum_minus h, ← Finset.sum_neg_distrib]
  refine Finset.sum_congr rfl fun n _ => ?_
  rw [cart_minus h, neg_mul, neg_inj]
  congr 1
  rw [Finset.sum_comm]
  refine Finset.sum_congr rfl fun l _ => Finset.sum_congr rfl fun k _ => ?_
  rw [← hC n _ (minusR_spec h n)]

theorem antisymm_symm {T : Fin 3 → Fin 3 → Fin 3 → ℝ} (h1 : ∀ x y z, T x y z = -T y x z)
    (h2 : ∀ x y z, T x y z = T z y x) (x y z : Fin 3) : T x y z = 0 := by
  have a1 := h1 x y z
  have a2 := h2 y x z
  have a3 := h1 z x y
  have a4 := h2 x z y
  have a5 := h1 y z x
  have a6 := h2 z y x
  linarith

theorem moment_cell (h : Symmetric Rint) (r : Fin nat → Fin 3 → ℝ) {C : Index nR nat → ℝ}
    (hC : Reciprocal Rint C) (hasr : ∀ k x y, ∑ n, ∑ l, C (n, (k, x), (l, y)) = 0)
    (hrsr : ∀ k x1 x2 y, ∑ n, ∑ l, (C (n, (k, x1), (l, y)) * (cart a (Rint n) x2 + r l x2) -
      C (n, (k, x2), (l, y)) * (cart a (Rint n) x1 + r l x1)) = 0) (x y z : Fin 3) :
    ∑ k, moment (fun n => cart a (Rint n)) r C k x y z = 0 := by
  refine antisymm_symm (T := fun x y z => ∑ k, moment (fun n => cart a (Rint n)) r C k x y z)
    (moment_antisymm h r hC hasr) (fun x y z => ?_) x y z
  refine Finset.sum_congr rfl fun k _ => ?_
  have := hrsr k x z y
  simp only [Finset.sum_sub_distrib] at this
  exact sub_eq_zero.1 this

/-- C183: with the sum rules that are imposed, a rotation of the crystal leads to no total force on the unit cell. -/
theorem C183_cell (h : Symmetric Rint) (r : Fin nat → Fin 3 → ℝ) {C : Index nR nat → ℝ}
    (hC : Reciprocal Rint C) (hasr : ∀ k x y, ∑ n, ∑ l, C (n, (k, x), (l, y)) = 0)
    (hrsr : ∀ k x1 x2 y, ∑ n, ∑ l, (C (n, (k, x1), (l, y)) * (cart a (Rint n) x2 + r l x2) -
      C (n, (k, x2), (l, y)) * (cart a (Rint n) x1 + r l x1)) = 0) (ω : Fin 3 → ℝ) (x : Fin 3) :
    ∑ k, rotationForce (fun n => cart a (Rint n)) r C ω k x = 0 := by
  simp only [rotationForce_eq]
  rw [Finset.sum_add_distrib, Finset.sum_add_distrib, ← Finset.mul_sum, ← Finset.mul_sum, ← Finset.mul_sum,
    Finset.sum_sub_distrib, Finset.sum_sub_distrib, Finset.sum_sub_distrib]
  simp only [moment_cell h r hC hasr hrsr]
  ring

/-- C183: the corrected force constants of a crystal with one atom per unit cell are those without forces upon
translation and rotation. -/
theorem C183_monatomic (Rint : Fin nR → V3) (h : Symmetric Rint) (a : Fin 3 → Fin 3 → ℝ) (r : Fin 1 → Fin 3 → ℝ)
    (divideMass : Bool) (M : Fin 1 → ℝ) (hM : ∀ a, 0 < M a) (data : Index nR 1 → ℝ)
    (hC : Reciprocal Rint (forceConstants divideMass M data)) (ω : Fin 3 → ℝ) (k : Fin 1) (x : Fin 3) :
    rotationForce (fun n => cart a (Rint n)) r (forceConstants divideMass M
      (sumRuleCorrection true true 0 Rint (fun n => cart a (Rint n)) r divideMass M data)) ω k x = 0 := by
  have hr := C74_reciprocal true true 0 Rint h (fun n => cart a (Rint n)) r divideMass M hM data hC
  have h1 := C74_acoustic true le_rfl Rint h (fun n => cart a (Rint n)) r divideMass M hM data hC
  have h2 := C74_rotation true le_rfl Rint h (fun n => cart a (Rint n)) r divideMass M hM data hC
  simp only [zero_div, zero_mul] at h1 h2
  have hc := C183_cell h r hr (fun k x y => pow_eq_zero_iff two_ne_zero |>.1 (le_antisymm (h1 k x y) (sq_nonneg _)))
    (fun k x1 x2 y => pow_eq_zero_iff two_ne_zero |>.1 (le_antisymm (h2 k x1 x2 y) (sq_nonneg _))) ω x
  rw [Subsingleton.elim k 0]
  simpa using hc

/-- C183: no force upon rotation of the unit cell as a whole after the correction, any number of atoms. -/
theorem C183_cell_corrected (Rint : Fin nR → V3) (h : Symmetric Rint) (a : Fin 3 → Fin 3 → ℝ)
    (r : Fin nat → Fin 3 → ℝ) (divideMass : Bool) (M : Fin nat → ℝ) (hM : ∀ a, 0 < M a) (data : Index nR nat → ℝ)
    (hC : Reciprocal Rint (forceConstants divideMass M data)) (ω : Fin 3 → ℝ) (x : Fin 3) :
    ∑ k, rotationForce (fun n => cart a (Rint n)) r (forceConstants divideMass M
      (sumRuleCorrection true true 0 Rint (fun n => cart a (Rint n)) r divideMass M data)) ω k x = 0 := by
  have hr := C74_reciprocal true true 0 Rint h (fun n => cart a (Rint n)) r divideMass M hM data hC
  have h1 := C74_acoustic true le_rfl Rint h (fun n => cart a (Rint n)) r divideMass M hM data hC
  have h2 := C74_rotation true le_rfl Rint h (fun n => cart a (Rint n)) r divideMass M hM data hC
  simp only [zero_div, zero_mul] at h1 h2
  exact C183_cell h r hr (fun k x y => pow_eq_zero_iff two_ne_zero |>.1 (le_antisymm (h1 k x y) (sq_nonneg _)))
    (fun k x1 x2 y => pow_eq_zero_iff two_ne_zero |>.1 (le_antisymm (h2 k x1 x2 y) (sq_nonneg _))) ω x

end Cell

/-! ### Molecule of three atoms -/

/-- Atoms at the origin and at unit distance on the first two axes. -/
def triangle : Fin 3 → Fin 3 → ℤ := ![![0, 0, 0], ![1, 0, 0], ![0, 1, 0]]

def single : Fin 1 → V3 := fun _ => (0, 0, 0)

theorem single_symmetric : Symmetric single := by
  constructor
  · decide
  · decide

/-- Change of the distance between atoms 0 and 1. -/
def bond1 : Fin 3 × Fin 3 → ℤ := fun i => (![![-1, 0, 0], ![1, 0, 0], ![0, 0, 0]] : Fin 3 → Fin 3 → ℤ) i.1 i.2

/-- Change of the distance between atoms 0 and 2. -/
def bond2 : Fin 3 × Fin 3 → ℤ := fun i => (![![0, -1, 0], ![0, 0, 0], ![0, 1, 0]] : Fin 3 → Fin 3 → ℤ) i.1 i.2

/-- The energy depends on the sum of the two distances: `E = (bond1 + bond2) ^ 2 / 2`. -/
def stretch (i : Index 1 3) : ℤ := (bond1 i.2.1 + bond2 i.2.1) * (bond1 i.2.2 + bond2 i.2.2)

/-- Displacement of atom 2 relative to atom 0 along the first axis. -/
def bent1 : Fin 3 × Fin 3 → ℤ := fun i => (![![-1, 0, 0], ![0, 0, 0], ![1, 0, 0]] : Fin 3 → Fin 3 → ℤ) i.1 i.2

/-- Displacement of atom 1 relative to atom 0 along the second axis. -/
def bent2 : Fin 3 × Fin 3 → ℤ := fun i => (![![0, -1, 0], ![0, 1, 0], ![0, 0, 0]] : Fin 3 → Fin 3 → ℤ) i.1 i.2

/-- The energy is the product of the two displacements, `E = bent1 * bent2`. -/
def shear (i : Index 1 3) : ℤ := bent1 i.2.1 * bent2 i.2.2 + bent2 i.2.1 * bent1 i.2.2

def real (C : Index 1 3 → ℤ) : Index 1 3 → ℝ := fun i => C i

def triangleR : Fin 3 → Fin 3 → ℝ := fun l x => triangle l x

theorem real_reciprocal {C : Index 1 3 → ℤ} (h : ∀ i j, C (0, i, j) = C (0, j, i)) :
    Reciprocal single (forceConstants false (fun _ => 1) (real C)) := by
  intro n m _ i j
  rw [Subsingleton.elim n 0, Subsingleton.elim m 0]
  simp only [forceConstants, real, Bool.false_eq_true, if_false]
  rw [h i j]

/-- C183 is violated: a molecule without forces upon translation and rotation is changed by the correction, for any
small threshold. -/
theorem C183_invariant_violated (asr : Bool) {eps : ℝ} (h0 : 0 ≤ eps) (h1 : eps ≤ 1 / 100) :
    Reciprocal single (forceConstants false (fun _ => 1) (real stretch)) ∧
    (∀ k x y, ∑ n, ∑ l, real stretch (n, (k, x), (l, y)) = 0) ∧
    (∀ ω k x, rotationForce (fun n => cart 0 (single n)) triangleR (real stretch) ω k x = 0) ∧
    sumRuleCorrection asr true eps single (fun n => cart 0 (single n)) triangleR false (fun _ => 1) (real stretch) ≠
      real stretch := by
  have hr : Reciprocal single (forceConstants false (fun _ => 1) (real stretch)) :=
    real_reciprocal (by decide +kernel)
  refine ⟨hr, ?_, ?_, ?_⟩
  · intro k x y
    have : ∀ k x y, ∑ n, ∑ l, stretch (n, (k, x), (l, y)) = 0 := by decide +kernel
    simp only [real]
    exact_mod_cast this k x y
  · rw [C183_born_huang]
    intro k x y z
    have : ∀ k x y z, ∑ n, ∑ l, (stretch (n, (k, x), (l, y)) * triangle l z -
        stretch (n, (k, x), (l, z)) * triangle l y) = 0 := by decide +kernel
    have h := this k x y z
    simp only [cart, single, Int.cast_zero, zero_mul, add_zero, zero_add, real, triangleR]
    exact_mod_cast h
  · intro he
    have hb := C74_rotation asr h0 single single_symmetric (fun n => cart 0 (single n)) triangleR false
      (fun _ => 1) (fun _ => one_pos) (real stretch) hr 1 0 1 1
    rw [he] at hb
    simp only [forceConstants, Bool.false_eq_true, if_false] at hb
    have e1 : ∑ n, ∑ l, (stretch (n, (1, 0), (l, 1)) * triangle l 1 -
        stretch (n, (1, 1), (l, 1)) * triangle l 0) = 1 := by decide +kernel
    have e2 : ∑ i, stretch i ^ 2 = 16 := by decide +kernel
    have f1 : ∑ n, ∑ l, (real stretch (n, (1, 0), (l, 1)) * (cart 0 (single n) 1 + triangleR l 1) -
        real stretch (n, (1, 1), (l, 1)) * (cart 0 (single n) 0 + triangleR l 0)) = 1 := by
      simp only [cart, single, Int.cast_zero, zero_mul, add_zero, zero_add, real, triangleR]
      exact_mod_cast e1
    have f2 : ∑ i, real stretch i ^ 2 = 16 := by
      simp only [real]
      exact_mod_cast e2
    rw [f1, f2] at hb
    linarith

theorem shear_reciprocal : Reciprocal single (real shear) :=
  real_reciprocal (C := shear) (by decide +kernel)

theorem shear_acoustic (k : Fin 3) (x y : Fin 3) : ∑ n, ∑ l, real shear (n, (k, x), (l, y)) = 0 := by
  have : ∀ k x y, ∑ n, ∑ l, shear (n, (k, x), (l, y)) = 0 := by decide +kernel
  simp only [real]
  exact_mod_cast this k x y

theorem shear_rotation (k : Fin 3) (x1 x2 y : Fin 3) :
    ∑ n, ∑ l, (real shear (n, (k, x1), (l, y)) * (cart 0 (single n) x2 + triangleR l x2) -
      real shear (n, (k, x2), (l, y)) * (cart 0 (single n) x1 + triangleR l x1)) = 0 := by
  have : ∀ k x1 x2 y, ∑ n, ∑ l, (shear (n, (k, x1), (l, y)) * triangle l x2 -
      shear (n, (k, x2), (l, y)) * triangle l x1) = 0 := by decide +kernel
  have h := this k x1 x2 y
  simp only [cart, single, Int.cast_zero, zero_mul, add_zero, zero_add, real, triangleR]
  exact_mod_cast h

/-- C183 is violated: force constants that lead to forces upon rotation are left as they are by the correction. -/
theorem C183_force_violated (asr : Bool) {eps : ℝ} (h0 : 0 ≤ eps) :
    Reciprocal single (real shear) ∧
    sumRuleCorrection asr true eps single (fun n => cart 0 (single n)) triangleR false (fun _ => 1) (real shear) =
      real shear ∧
    rotationForce (fun n => cart 0 (single n)) triangleR (real shear) ![0, 0, 1] 0 0 = 1 := by
  refine ⟨shear_reciprocal, ?_, ?_⟩
  · exact C74_unchanged asr true h0 single single_symmetric _ _ false _ (fun _ => one_pos) _ shear_reciprocal
      (fun _ => shear_acoustic) (fun _ => shear_rotation)
  · rw [rotationForce_eq]
    have e : ∑ n, ∑ l, shear (n, (0, 0), (l, 0)) * triangle l 1 -
        ∑ n, ∑ l, shear (n, (0, 0), (l, 1)) * triangle l 0 = 1 := by decide +kernel
    have f : moment (fun n => cart 0 (single n)) triangleR (real shear) 0 0 0 1 -
        moment (fun n => cart 0 (single n)) triangleR (real shear) 0 0 1 0 = 1 := by
      simp only [moment, cart, single, Int.cast_zero, zero_mul, add_zero, zero_add, real, triangleR]
      exact_mod_cast e
    rw [f]
    simp

/-! ### Instances -/

example (ω : Fin 3 → ℝ) (x : Fin 3) := C183_cell (a := 0) single_symmetric triangleR shear_reciprocal shear_acoustic
  shear_rotation ω x

example (ω : Fin 3 → ℝ) (x : Fin 3) := C183_cell_corrected single single_symmetric 0 triangleR false (fun _ => 1)
  (fun _ => one_pos) (real shear) shear_reciprocal ω x

example (ω : Fin 3 → ℝ) (x : Fin 3) := C183_monatomic chainR chainR_symmetric (fun i j => if i = j then 1 else 0)
  (fun _ _ => 0) false (fun _ => 1) (fun _ => one_pos) chainC chainC_reciprocal ω 0 x

end Verif.Phon.BornHuang
