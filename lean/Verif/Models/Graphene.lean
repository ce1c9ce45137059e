import Mathlib.Analysis.SpecialFunctions.Trigonometric.Basic
import Mathlib.Analysis.SpecialFunctions.Sqrt
import Mathlib.Analysis.SpecialFunctions.ExpDeriv
import Mathlib.Analysis.Complex.Trigonometric
import Mathlib.LinearAlgebra.Matrix.Symmetric
import Mathlib.LinearAlgebra.Matrix.Notation
import Mathlib.Data.Matrix.Mul
import Mathlib.Tactic.LinearCombination
import Mathlib.Tactic.FinCases

/-!
# Model of `elphmod/models/graphene.py` (C58)

The parameters (hopping, force constants, mass, lattice constant, interaction) are arbitrary real numbers. The six atomic
displacements are labelled by pairs of atom and direction instead of `3 * atom + direction`.
-/

namespace Verif.Models

open Complex (I)

/-- `np.exp(1j * phi)` for real `phi`. -/
noncomputable def cis (phi : ℝ) : ℂ := Complex.exp (I * phi)

@[simp] theorem cis_zero : cis 0 = 1 := by simp [cis]

@[simp] theorem cis_conj (phi : ℝ) : (starRingEnd ℂ) (cis phi) = cis (-phi) := by
  unfold cis
  rw [← Complex.exp_conj]
  simp

theorem cis_add (x y : ℝ) : cis (x + y) = cis x * cis y := by
  unfold cis
  rw [← Complex.exp_add]
  push_cast
  ring_nf

@[simp] theorem cis_two_pi : cis (2 * Real.pi) = 1 := by
  unfold cis
  rw [show I * ((2 * Real.pi : ℝ) : ℂ) = 2 * Real.pi * I by push_cast; ring]
  exact Complex.exp_two_pi_mul_I

theorem cis_neg_two_pi : cis (-(2 * Real.pi)) = 1 := by
  rw [← cis_conj, cis_two_pi, map_one]

theorem cis_add_two_pi (x : ℝ) : cis (x + 2 * Real.pi) = cis x := by
  rw [cis_add, cis_two_pi, mul_one]

theorem cis_neg_add_two_pi (x : ℝ) : cis (-(x + 2 * Real.pi)) = cis (-x) := by
  rw [neg_add, cis_add, cis_neg_two_pi, mul_one]

namespace Graphene

/-- `elphmod/models/graphene.py` 41-49 (`hamiltonian`). -/
noncomputable def hamiltonian (t k1 k2 : ℝ) : Matrix (Fin 2) (Fin 2) ℂ :=
  let h : ℂ := t * (cis k1 + 1 + cis (-k2))
  !![0, h; (starRingEnd ℂ) h, 0]

/-- `elphmod/models/graphene.py` 51-59 (`rotate`). -/
noncomputable def rotate (A : Matrix (Fin 3) (Fin 3) ℝ) (phi : ℝ) : Matrix (Fin 3) (Fin 3) ℝ :=
  let x := phi * (Real.pi / 180)
  let c := Real.cos x
  let s := Real.sin x
  let R : Matrix (Fin 3) (Fin 3) ℝ := !![c, -s, 0; s, c, 0; 0, 0, 1]
  R * A * R.transpose

/-- `elphmod/models/graphene.py` 61-65 (`K`, `K1`, `K2`, `K3`). -/
noncomputable def springK (C : Fin 3 → ℝ) (n : Fin 3) : Matrix (Fin 3) (Fin 3) ℝ :=
  rotate (Matrix.diagonal C) (![30, 150, 270] n)

/-- `elphmod/models/graphene.py` 67-71 (`L`, `L1`, `L2`, `L3`). -/
noncomputable def springL (C : Fin 3 → ℝ) (n : Fin 3) : Matrix (Fin 3) (Fin 3) ℝ :=
  rotate (Matrix.diagonal ![0, -C 1 / 6, -C 2 / 6]) (![0, 120, 240] n)

/-- `elphmod/models/graphene.py` 78: block `C[3:, :3]`. -/
noncomputable def blockK (C : Fin 3 → ℝ) (q1 q2 : ℝ) (x y : Fin 3) : ℂ :=
  springK C 0 x y * cis q1 + springK C 1 x y + springK C 2 x y * cis (-q2)

/-- `elphmod/models/graphene.py` 79-83: block `C[:3, :3]`. -/
noncomputable def blockL (C : Fin 3 → ℝ) (q1 q2 : ℝ) (x y : Fin 3) : ℂ :=
  let s : ℂ := springL C 0 x y * cis q1 + springL C 1 x y * cis q2 + springL C 2 x y * cis (-(q1 + q2))
  s + (starRingEnd ℂ) s - ((springK C 0 x y + springK C 1 x y + springK C 2 x y
    + 2 * (springL C 0 x y + springL C 1 x y + springL C 2 x y) : ℝ) : ℂ)

/-- `elphmod/models/graphene.py` 73-88 (`dynamical_matrix`). -/
noncomputable def dynamicalMatrix (C : Fin 3 → ℝ) (M q1 q2 : ℝ) (i j : Fin 2 × Fin 3) : ℂ :=
  (match i.1, j.1 with
    | 0, 0 => blockL C q1 q2 i.2 j.2
    | 0, 1 => (starRingEnd ℂ) (blockK C q1 q2 j.2 i.2)
    | 1, 0 => blockK C q1 q2 i.2 j.2
    | 1, 1 => (starRingEnd ℂ) (blockL C q1 q2 i.2 j.2)) / (M : ℂ)

/-- `elphmod/models/graphene.py` 34-35 and 90-92: atomic positions and bond vectors for given lattice vectors. -/
noncomputable def bond (at_ : Fin 3 → Fin 3 → ℝ) (n : Fin 3) (x : Fin 3) : ℝ :=
  let r0 := (2 * at_ 0 x + 1 * at_ 1 x + 0 * at_ 2 x) / 3
  let r1 := (1 * at_ 0 x + 2 * at_ 1 x + 0 * at_ 2 x) / 3
  ![r1 - r0, r0, -r1] n

/-- `elphmod/models/graphene.py` 93: bond length. -/
noncomputable def bondLength (v : Fin 3 → ℝ) : ℝ := Real.sqrt (∑ x, v x ^ 2)

/-- `elphmod/models/graphene.py` 98-105: derivative of the bonds. -/
noncomputable def coupling0 (tau : Fin 3 → Fin 3 → ℝ) (q1 q2 k1 k2 : ℝ) (x : Fin 3) : Matrix (Fin 2) (Fin 2) ℂ :=
  !![0, tau 0 x + tau 1 x * cis k1 + tau 2 x * cis (-k2);
    tau 0 x + tau 1 x * cis (-(k1 + q1)) + tau 2 x * cis (k2 + q2), 0]

/-- `elphmod/models/graphene.py` 95-107 (`coupling`). -/
noncomputable def coupling (tau : Fin 3 → Fin 3 → ℝ) (beta t M q1 q2 k1 k2 : ℝ) (x : Fin 2 × Fin 3) (a b : Fin 2) : ℂ :=
  let d : ℂ := match x.1 with
    | 0 => coupling0 tau q1 q2 k1 k2 x.2 a b
    | 1 => -(starRingEnd ℂ) (coupling0 tau q1 q2 k1 k2 x.2 b a)
  ((beta * t / (bondLength (tau 0) ^ 2 * Real.sqrt M) : ℝ) : ℂ) * d

/-- `elphmod/models/graphene.py` 114-126 (`coulomb_interaction`). -/
noncomputable def coulomb (U : Fin 4 → ℝ) (q1 q2 : ℝ) : Matrix (Fin 2) (Fin 2) ℂ :=
  let u00 : ℂ := ((U 0 + 2 * U 2 * (Real.cos q1 + Real.cos (q1 + q2) + Real.cos q2) : ℝ) : ℂ)
  let u01 : ℂ := U 1 * (cis q1 + 1 + cis (-q2)) + U 3 * ((2 * Real.cos (q1 + q2) : ℝ) + cis (q1 - q2))
  !![u00, u01; (starRingEnd ℂ) u01, u00]

/-! ### Hamiltonian -/

/-- C58: the Hamiltonian of graphene is Hermitian and periodic and obeys time-reversal symmetry. -/
theorem C58_graphene_hamiltonian (t k1 k2 : ℝ) (a b : Fin 2) :
    star (hamiltonian t k1 k2 a b) = hamiltonian t k1 k2 b a ∧
    hamiltonian t (k1 + 2 * Real.pi) k2 a b = hamiltonian t k1 k2 a b ∧
    hamiltonian t k1 (k2 + 2 * Real.pi) a b = hamiltonian t k1 k2 a b ∧
    hamiltonian t (-k1) (-k2) a b = star (hamiltonian t k1 k2 a b) := by
  refine ⟨?_, ?_, ?_, ?_⟩
  · fin_cases a <;> fin_cases b <;> simp [hamiltonian]
  · unfold hamiltonian
    rw [cis_add_two_pi]
  · unfold hamiltonian
    rw [cis_neg_add_two_pi]
  · fin_cases a <;> fin_cases b <;> simp [hamiltonian]

/-- C58: the Hamiltonian of graphene has a three-fold rotation axis, up to a phase of one of the orbitals. -/
theorem C58_graphene_rotation (t k1 k2 : ℝ) :
    hamiltonian t (-(k1 + k2)) k1 0 1 = cis (-(k1)) * hamiltonian t k1 k2 0 1 := by
  simp only [hamiltonian, Matrix.of_apply, Matrix.cons_val', Matrix.cons_val_zero, Matrix.cons_val_one,
    Matrix.cons_val_fin_one]
  have h : cis (-k1) * cis k1 = 1 := by rw [← cis_add]; simp
  rw [neg_add, cis_add]
  linear_combination (-(t : ℂ)) * h

/-! ### Phonons -/

theorem rotate_symm {A : Matrix (Fin 3) (Fin 3) ℝ} (h : A.transpose = A) (phi : ℝ) (x y : Fin 3) :
    rotate A phi x y = rotate A phi y x := by
  have h1 : (rotate A phi).transpose = rotate A phi := by
    unfold rotate
    simp only [Matrix.transpose_mul, Matrix.transpose_transpose, h, Matrix.mul_assoc]
  exact congrFun (congrFun h1 y) x

theorem rotate_apply (A : Matrix (Fin 3) (Fin 3) ℝ) (phi : ℝ) (x y : Fin 3) :
    rotate A phi x y = ∑ w, (∑ z, (![![Real.cos (phi * (Real.pi / 180)), -Real.sin (phi * (Real.pi / 180)), 0],
      ![Real.sin (phi * (Real.pi / 180)), Real.cos (phi * (Real.pi / 180)), 0], ![0, 0, 1]] : Fin 3 → Fin 3 → ℝ) x z * A z w) *
      (![![Real.cos (phi * (Real.pi / 180)), -Real.sin (phi * (Real.pi / 180)), 0],
      ![Real.sin (phi * (Real.pi / 180)), Real.cos (phi * (Real.pi / 180)), 0], ![0, 0, 1]] : Fin 3 → Fin 3 → ℝ) y w := by
  unfold rotate
  simp only [Matrix.mul_apply, Matrix.transpose_apply, Matrix.of_apply]

theorem springK_symm (C : Fin 3 → ℝ) (n x y : Fin 3) : springK C n x y = springK C n y x :=
  rotate_symm (Matrix.diagonal_transpose _) _ x y

theorem springL_symm (C : Fin 3 → ℝ) (n x y : Fin 3) : springL C n x y = springL C n y x :=
  rotate_symm (Matrix.diagonal_transpose _) _ x y

theorem blockL_conj (C : Fin 3 → ℝ) (q1 q2 : ℝ) (x y : Fin 3) :
    (starRingEnd ℂ) (blockL C q1 q2 x y) = blockL C q1 q2 x y := by
  simp only [blockL, map_sub, map_add, Complex.conj_conj, Complex.conj_ofReal]
  ring

theorem blockL_symm (C : Fin 3 → ℝ) (q1 q2 : ℝ) (x y : Fin 3) : blockL C q1 q2 x y = blockL C q1 q2 y x := by
  unfold blockL
  simp only [springK_symm C _ x y, springL_symm C _ x y]

/-- C58: the dynamical matrix of graphene is Hermitian and periodic, obeys time-reversal symmetry and the acoustic sum rule. -/
theorem C58_graphene_dynamical_matrix (C : Fin 3 → ℝ) (M q1 q2 : ℝ) (i j : Fin 2 × Fin 3) :
    star (dynamicalMatrix C M q1 q2 i j) = dynamicalMatrix C M q1 q2 j i ∧
    dynamicalMatrix C M (q1 + 2 * Real.pi) q2 i j = dynamicalMatrix C M q1 q2 i j ∧
    dynamicalMatrix C M q1 (q2 + 2 * Real.pi) i j = dynamicalMatrix C M q1 q2 i j ∧
    dynamicalMatrix C M (-q1) (-q2) i j = star (dynamicalMatrix C M q1 q2 i j) ∧
    ∀ y, ∑ l, dynamicalMatrix C M 0 0 i (l, y) = 0 := by
  obtain ⟨i, x⟩ := i
  obtain ⟨j, y⟩ := j
  refine ⟨?_, ?_, ?_, ?_, fun y => ?_⟩
  · fin_cases i <;> fin_cases j <;>
      simp only [dynamicalMatrix, RCLike.star_def, map_div₀, Complex.conj_ofReal, Complex.conj_conj, Fin.zero_eta, Fin.mk_one]
    · rw [blockL_conj, blockL_symm]
    · rw [blockL_conj, blockL_symm]
  · have h1 : ∀ x y, blockK C (q1 + 2 * Real.pi) q2 x y = blockK C q1 q2 x y := fun x y => by
      unfold blockK
      rw [cis_add_two_pi]
    have h2 : ∀ x y, blockL C (q1 + 2 * Real.pi) q2 x y = blockL C q1 q2 x y := fun x y => by
      unfold blockL
      rw [cis_add_two_pi, show q1 + 2 * Real.pi + q2 = q1 + q2 + 2 * Real.pi by ring, cis_neg_add_two_pi]
    unfold dynamicalMatrix
    simp only [h1, h2]
  · have h1 : ∀ x y, blockK C q1 (q2 + 2 * Real.pi) x y = blockK C q1 q2 x y := fun x y => by
      unfold blockK
      rw [cis_neg_add_two_pi]
    have h2 : ∀ x y, blockL C q1 (q2 + 2 * Real.pi) x y = blockL C q1 q2 x y := fun x y => by
      unfold blockL
      rw [cis_add_two_pi, ← add_assoc, cis_neg_add_two_pi]
    unfold dynamicalMatrix
    simp only [h1, h2]
  · have h1 : ∀ x y, blockK C (-q1) (-q2) x y = (starRingEnd ℂ) (blockK C q1 q2 x y) := fun x y => by
      simp [blockK]
    have h2 : ∀ x y, blockL C (-q1) (-q2) x y = (starRingEnd ℂ) (blockL C q1 q2 x y) := fun x y => by
      simp only [blockL, map_sub, map_add, map_mul, cis_conj, Complex.conj_ofReal, neg_neg, neg_add, Complex.conj_conj]
    unfold dynamicalMatrix
    fin_cases i <;> fin_cases j <;>
      simp only [RCLike.star_def, map_div₀, Complex.conj_ofReal, Complex.conj_conj, Fin.zero_eta, Fin.mk_one, h1, h2]
  · rw [Fin.sum_univ_two]
    fin_cases i <;> simp only [dynamicalMatrix, Fin.zero_eta, Fin.mk_one, blockK, blockL, springK_symm C _ y x]
    · simp
      ring
    · simp [Complex.conj_ofNat]
      ring

/-- C58: out-of-plane and in-plane vibrations of graphene do not mix. -/
theorem C58_graphene_decoupled (C : Fin 3 → ℝ) (M q1 q2 : ℝ) (i j : Fin 2) (x : Fin 3) (hx : x ≠ 2) :
    dynamicalMatrix C M q1 q2 (i, x) (j, 2) = 0 ∧ dynamicalMatrix C M q1 q2 (i, 2) (j, x) = 0 := by
  have h : ∀ (d : Fin 3 → ℝ) (phi : ℝ), rotate (Matrix.diagonal d) phi x 2 = 0 := by
    intro d phi
    rw [rotate_apply]
    fin_cases x
    · simp [Fin.sum_univ_three]
    · simp [Fin.sum_univ_three]
    · exact absurd rfl hx
  have hK : ∀ n, springK C n x 2 = 0 := fun n => h _ _
  have hL : ∀ n, springL C n x 2 = 0 := fun n => h _ _
  have hK' : ∀ n, springK C n 2 x = 0 := fun n => (springK_symm C n 2 x).trans (hK n)
  have hL' : ∀ n, springL C n 2 x = 0 := fun n => (springL_symm C n 2 x).trans (hL n)
  fin_cases i <;> fin_cases j <;> simp [dynamicalMatrix, blockK, blockL, hK, hL, hK', hL']

/-- The dynamical matrix does not vanish in general. -/
example : dynamicalMatrix (fun _ => 1) 1 Real.pi 0 (0, 2) (0, 2) ≠ 0 := by
  have h : cis Real.pi = -1 := by
    unfold cis
    rw [mul_comm]
    exact Complex.exp_pi_mul_I
  have h' : cis (-Real.pi) = -1 := by
    rw [← cis_conj, h]
    simp
  simp [dynamicalMatrix, blockL, springK, springL, rotate_apply, Fin.sum_univ_three, h, h', Complex.conj_ofNat]
  norm_num

/-! ### Coupling -/

/-- C58: the coupling of graphene obeys `g(q, k) = g(-q, k + q)^dagger`, is periodic, and couples to relative displacements
only. -/
theorem C58_graphene_coupling (tau : Fin 3 → Fin 3 → ℝ) (beta t M q1 q2 k1 k2 : ℝ) (x : Fin 2 × Fin 3) (a b : Fin 2) :
    coupling tau beta t M q1 q2 k1 k2 x a b = star (coupling tau beta t M (-q1) (-q2) (k1 + q1) (k2 + q2) x b a) ∧
    coupling tau beta t M (q1 + 2 * Real.pi) q2 k1 k2 x a b = coupling tau beta t M q1 q2 k1 k2 x a b ∧
    coupling tau beta t M q1 (q2 + 2 * Real.pi) k1 k2 x a b = coupling tau beta t M q1 q2 k1 k2 x a b ∧
    coupling tau beta t M q1 q2 (k1 + 2 * Real.pi) k2 x a b = coupling tau beta t M q1 q2 k1 k2 x a b ∧
    coupling tau beta t M q1 q2 k1 (k2 + 2 * Real.pi) x a b = coupling tau beta t M q1 q2 k1 k2 x a b ∧
    ∑ l, coupling tau beta t M 0 0 k1 k2 (l, x.2) a b = 0 := by
  obtain ⟨i, x⟩ := x
  refine ⟨?_, ?_, ?_, ?_, ?_, ?_⟩
  · fin_cases i <;> fin_cases a <;> fin_cases b <;> simp [coupling, coupling0]
  · unfold coupling coupling0
    rw [← add_assoc, cis_neg_add_two_pi]
  · unfold coupling coupling0
    rw [← add_assoc, cis_add_two_pi]
  · unfold coupling coupling0
    rw [cis_add_two_pi, show k1 + 2 * Real.pi + q1 = k1 + q1 + 2 * Real.pi by ring, cis_neg_add_two_pi]
  · unfold coupling coupling0
    rw [cis_neg_add_two_pi, show k2 + 2 * Real.pi + q2 = k2 + q2 + 2 * Real.pi by ring, cis_add_two_pi]
  · rw [Fin.sum_univ_two]
    fin_cases a <;> fin_cases b <;> simp [coupling, coupling0] <;> ring

theorem bond_lengths (a c : ℝ) (n : Fin 3) :
    ∑ x, bond ![![a, 0, 0], ![-0.5 * a, 0.5 * Real.sqrt 3 * a, 0], ![0, 0, c * a]] n x ^ 2 = a ^ 2 / 3 := by
  have h : Real.sqrt 3 ^ 2 = 3 := Real.sq_sqrt (by norm_num)
  rw [Fin.sum_univ_three]
  fin_cases n
  · simp [bond]
    linear_combination (a ^ 2 / 36) * h
  · simp [bond]
    linear_combination (a ^ 2 / 36) * h
  · simp [bond]
    linear_combination (a ^ 2 / 9) * h

/-- Hopping of a bond displaced by `s • v` that decays exponentially with the bond length. -/
noncomputable def displaced (t beta : ℝ) (v w : Fin 3 → ℝ) (s : ℝ) : ℝ :=
  t * Real.exp (-beta * (Real.sqrt (∑ x, (v x + s * w x) ^ 2) / bondLength v - 1))

theorem displaced_deriv (t beta : ℝ) (v w : Fin 3 → ℝ) (hv : 0 < ∑ x, v x ^ 2) :
    HasDerivAt (displaced t beta v w) (-(beta * t / bondLength v ^ 2) * ∑ x, v x * w x) 0 := by
  have h0 : HasDerivAt (fun s : ℝ => ∑ x, (v x + s * w x) ^ 2) (2 * ∑ x, v x * w x) 0 := by
    have := HasDerivAt.fun_sum (u := Finset.univ) (x := (0 : ℝ)) (A := fun x (s : ℝ) => (v x + s * w x) ^ 2)
      (A' := fun x => 2 * (v x * w x)) fun x _ => by
        have h := (((hasDerivAt_id (0 : ℝ)).mul_const (w x)).const_add (v x)).pow 2
        refine h.congr_deriv ?_
        simp
        ring
    refine this.congr_deriv ?_
    rw [Finset.mul_sum]
  have hs : ∑ x, (v x + 0 * w x) ^ 2 = ∑ x, v x ^ 2 := by simp
  have h1 := h0.sqrt (by rw [hs]; exact hv.ne')
  rw [hs] at h1
  have h2 := (((h1.div_const (bondLength v)).sub_const 1).const_mul (-beta)).exp.const_mul t
  refine h2.congr_deriv ?_
  have h3 : bondLength v ≠ 0 := (Real.sqrt_pos.2 hv).ne'
  rw [hs]
  change t * (Real.exp (-beta * (bondLength v / bondLength v - 1)) * (-beta * (2 * (∑ x, v x * w x) / (2 * bondLength v) /
    bondLength v))) = _
  rw [div_self h3, sub_self, mul_zero, Real.exp_zero]
  field_simp

/-- C58: the coupling of graphene is the change of the Hamiltonian of the undistorted crystal upon displacement of the
first atom (which shortens the bonds pointing in the direction of the displacement), for hopping that decays exponentially
with the bond length, divided by the square root of the mass. -/
theorem C58_graphene_derivative (a c : ℝ) (ha : 0 < a) (beta t M k1 k2 : ℝ) (w : Fin 3 → ℝ) :
    let tau := bond ![![a, 0, 0], ![-0.5 * a, 0.5 * Real.sqrt 3 * a, 0], ![0, 0, c * a]]
    (∀ n, displaced t beta (tau n) w 0 = t) ∧
    ∑ x, (Real.sqrt M : ℂ)⁻¹ * (w x : ℂ) * ∑ n : Fin 3, (![1, cis k1, cis (-k2)] n) *
      ((deriv (displaced t beta (tau n) (fun y => if y = x then -1 else 0)) 0 : ℝ) : ℂ) =
    ∑ x, (w x : ℂ) * coupling tau beta t M 0 0 k1 k2 (0, x) 0 1 := by
  intro tau
  have hlen : ∀ n, ∑ x, tau n x ^ 2 = a ^ 2 / 3 := bond_lengths a c
  have hpos : ∀ n, 0 < ∑ x, tau n x ^ 2 := fun n => by
    rw [hlen]
    positivity
  refine ⟨fun n => ?_, ?_⟩
  · have h3 : bondLength (tau n) ≠ 0 := (Real.sqrt_pos.2 (hpos n)).ne'
    unfold displaced
    simp only [zero_mul, add_zero]
    change t * Real.exp (-beta * (bondLength (tau n) / bondLength (tau n) - 1)) = t
    rw [div_self h3]
    simp
  · refine Finset.sum_congr rfl fun x _ => ?_
    have hd : ∀ n, deriv (displaced t beta (tau n) (fun y => if y = x then -1 else 0)) 0 =
        beta * t / bondLength (tau 0) ^ 2 * tau n x := fun n => by
      rw [(displaced_deriv t beta (tau n) _ (hpos n)).deriv]
      have : bondLength (tau n) = bondLength (tau 0) := by
        unfold bondLength
        rw [hlen, hlen]
      rw [this]
      simp
    simp only [hd, Fin.sum_univ_three, coupling, coupling0]
    simp
    ring

example := C58_graphene_derivative 2.46 10 (by norm_num) 2 (-2.6) 12 0.3 0.4 ![1, 2, 0]

/-! ### Coulomb interaction -/

/-- C58: the Coulomb interaction of graphene is Hermitian and periodic and obeys time-reversal symmetry. -/
theorem C58_graphene_coulomb (U : Fin 4 → ℝ) (q1 q2 : ℝ) (a b : Fin 2) :
    star (coulomb U q1 q2 a b) = coulomb U q1 q2 b a ∧
    coulomb U (q1 + 2 * Real.pi) q2 a b = coulomb U q1 q2 a b ∧
    coulomb U q1 (q2 + 2 * Real.pi) a b = coulomb U q1 q2 a b ∧
    coulomb U (-q1) (-q2) a b = star (coulomb U q1 q2 a b) ∧
    coulomb U 0 0 a b = if a = b then ((U 0 + 6 * U 2 : ℝ) : ℂ) else ((3 * U 1 + 3 * U 3 : ℝ) : ℂ) := by
  refine ⟨?_, ?_, ?_, ?_, ?_⟩
  · fin_cases a <;> fin_cases b <;> simp [coulomb, -Complex.ofReal_cos, -Complex.ofReal_add, -Complex.ofReal_mul]
  · unfold coulomb
    rw [cis_add_two_pi, Real.cos_add_two_pi, show q1 + 2 * Real.pi + q2 = q1 + q2 + 2 * Real.pi by ring,
      Real.cos_add_two_pi, show q1 + 2 * Real.pi - q2 = q1 - q2 + 2 * Real.pi by ring, cis_add_two_pi]
  · unfold coulomb
    rw [cis_neg_add_two_pi, Real.cos_add_two_pi, ← add_assoc, Real.cos_add_two_pi,
      show q1 - (q2 + 2 * Real.pi) = -(q2 - q1 + 2 * Real.pi) by ring, cis_neg_add_two_pi, neg_sub]
  · have h : Real.cos (-q1 + -q2) = Real.cos (q1 + q2) := by rw [← neg_add, Real.cos_neg]
    have h' : cis (-q1 - -q2) = (starRingEnd ℂ) (cis (q1 - q2)) := by
      rw [cis_conj]
      ring_nf
    fin_cases a <;> fin_cases b <;> simp only [coulomb, h, h', Real.cos_neg] <;>
      simp [-Complex.ofReal_cos, -Complex.ofReal_add, -Complex.ofReal_mul]
  · fin_cases a <;> fin_cases b <;> simp [coulomb, Complex.conj_ofNat] <;> ring

example := C58_graphene_coulomb ![10, 5.5, 4.1, 3.6] 0.3 0.4 0 1

end Graphene

end Verif.Models
