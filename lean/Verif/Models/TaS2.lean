import Verif.Models.Graphene
import Mathlib.Analysis.SpecialFunctions.Trigonometric.Deriv
import Mathlib.Analysis.SpecialFunctions.Pow.Deriv

/-!
# Model of `elphmod/models/tas2.py` (C58)

All parameters (onsite energies, hopping, force constants, masses, lattice constant, decay) are arbitrary real numbers. The
nine atomic displacements are labelled by pairs of atom and direction instead of `3 * atom + direction`.
-/

namespace Verif.Models.TaS2

open Complex (I)

/-- Three-by-three matrices. -/
abbrev Mat := Matrix (Fin 3) (Fin 3) ℝ

/-- `elphmod/bravais.py` 14 (`deg`). -/
noncomputable def deg : ℝ := Real.pi / 180

/-- `elphmod/models/tas2.py` 78-83 (`R2`). -/
noncomputable def R2 (phi : ℝ) : Mat :=
  !![1, 0, 0; 0, Real.cos (2 * phi), -Real.sin (2 * phi); 0, Real.sin (2 * phi), Real.cos (2 * phi)]

/-- `elphmod/models/tas2.py` 85-86 (`hopping`). -/
noncomputable def hopping (t0 : Mat) (phi : ℝ) : Mat := R2 phi * t0 * R2 (-phi)

/-- `elphmod/models/tas2.py` 88-93 (`dR2_dphi`). -/
noncomputable def dR2 (phi : ℝ) : Mat :=
  (2 : ℝ) • !![0, 0, 0; 0, -Real.sin (2 * phi), -Real.cos (2 * phi); 0, Real.cos (2 * phi), -Real.sin (2 * phi)]

/-- `elphmod/models/tas2.py` 98 (in `derivative`). -/
noncomputable def dtdphi (t0 : Mat) (phi : ℝ) : Mat := dR2 phi * t0 * R2 (-phi) - R2 phi * t0 * dR2 (-phi)

/-- `elphmod/models/tas2.py` 95-103 (`derivative`): derivatives in directions `x` and `y`. -/
noncomputable def derivative (a beta : ℝ) (t0 : Mat) (phi : ℝ) : Mat × Mat :=
  let dtdr := (-beta / a) • hopping t0 phi
  let dp := dtdphi t0 phi
  (Real.cos phi • dtdr - (Real.sin phi / a) • dp, Real.sin phi • dtdr + (Real.cos phi / a) • dp)

/-- `elphmod/models/tas2.py` 105-110 (`t`), `t[2 * n]` and `t[2 * n + 1]`. -/
noncomputable def t (t0 : Mat) (j : Fin 6) : Mat :=
  if j.val % 2 = 0 then hopping t0 ((j.val / 2 : ℕ) * 120 * deg)
  else hopping t0.transpose ((120 * (j.val / 2 : ℕ) + 60) * deg)

/-- `elphmod/models/tas2.py` 106-112 (`dt`): displacements of the first atom in the plane, zero otherwise. -/
noncomputable def dt (a beta : ℝ) (t0 : Mat) (j : Fin 6) (x : Fin 3 × Fin 3) : Mat :=
  let d := if j.val % 2 = 0 then derivative a beta t0 ((j.val / 2 : ℕ) * 120 * deg)
    else derivative a beta t0.transpose ((120 * (j.val / 2 : ℕ) + 60) * deg)
  if x = (0, 0) then d.1 else if x = (0, 1) then d.2 else 0

/-- `elphmod/models/tas2.py` 114-124 (`hamiltonian`). -/
noncomputable def hamiltonian (ez ex : ℝ) (t0 : Mat) (k1 k2 : ℝ) (a b : Fin 3) : ℂ :=
  (Matrix.diagonal ![ez, ex, ex] a b : ℝ) + (t t0 0 a b * cis k1 + t t0 3 a b * cis (-k1) + t t0 1 a b * cis (k1 + k2)
    + t t0 4 a b * cis (-(k1 + k2)) + t t0 2 a b * cis k2 + t t0 5 a b * cis (-k2))

/-- `elphmod/models/tas2.py` 126-131 (`R`). -/
noncomputable def R (phi : ℝ) : Mat :=
  !![Real.cos phi, -Real.sin phi, 0; Real.sin phi, Real.cos phi, 0; 0, 0, 1]

/-- `elphmod/models/tas2.py` 133-134 (`rotate`). -/
noncomputable def rotate (A : Mat) (phi : ℝ) : Mat := R phi * A * R (-phi)

/-- `elphmod/models/tas2.py` 136-142 (`xreflect`). -/
def xreflect {K : Type} [Ring K] (A : Matrix (Fin 3) (Fin 3) K) : Matrix (Fin 3) (Fin 3) K :=
  Matrix.of fun x y => if (x = 0) ≠ (y = 0) then -A x y else A x y

/-- `elphmod/models/tas2.py` 144-150 (`zreflect`). -/
def zreflect {K : Type} [Ring K] (A : Matrix (Fin 3) (Fin 3) K) : Matrix (Fin 3) (Fin 3) K :=
  Matrix.of fun x y => if (x = 2) ≠ (y = 2) then -A x y else A x y

/-- Force constants, `elphmod/models/tas2.py` 33-52. -/
structure Springs where
  /-- `ax` to `azx` -/
  (ax ay az axz azx : ℝ)
  /-- `by`, `bz` -/
  (by_ bz : ℝ)
  /-- `cx`, `cy`, `cz` -/
  (cx cy cz : ℝ)
  /-- `dx` to `dyz` -/
  (dx dy dz dyz : ℝ)
  /-- `ex`, `ez` -/
  (ex ez : ℝ)
  /-- `fx` to `fyz` -/
  (fx fy fz fyz : ℝ)

/-- `elphmod/models/tas2.py` 152-160 (`A1`, `A2`, `A3`). -/
noncomputable def Springs.A (p : Springs) (n : Fin 3) : Mat :=
  rotate !![p.ax, 0, p.axz; 0, p.ay, 0; p.azx, 0, p.az] (![-30, 90, 210] n * deg)

/-- `elphmod/models/tas2.py` 162 (`B`). -/
def Springs.B (p : Springs) : Mat := Matrix.diagonal ![p.by_, p.by_, p.bz]

/-- Six matrices of which the second, fourth, and sixth are the mirror images of the third, first, and fifth:
`elphmod/models/tas2.py` 166-171, 179-184, 198-203. -/
noncomputable def six (A1 : Mat) (n : Fin 6) : Mat :=
  let A3 := rotate A1 (120 * deg)
  let A5 := rotate A1 (240 * deg)
  ![A1, xreflect A3, A3, xreflect A1, A5, xreflect A5] n

/-- `elphmod/models/tas2.py` 164-171 (`C1` to `C6`). -/
noncomputable def Springs.C (p : Springs) : Fin 6 → Mat := six (Matrix.diagonal ![p.cx, p.cy, p.cz])

/-- `elphmod/models/tas2.py` 173-184 (`D1` to `D6`). -/
noncomputable def Springs.D (p : Springs) : Fin 6 → Mat := six !![p.dx, 0, 0; 0, p.dy, p.dyz; -0, p.dyz, p.dz]

/-- `elphmod/models/tas2.py` 186-190 (`E1`, `E2`, `E3`). -/
noncomputable def Springs.E (p : Springs) (n : Fin 3) : Mat :=
  rotate (Matrix.diagonal ![p.ex, p.ex, p.ez]) (![30, 150, 270] n * deg)

/-- `elphmod/models/tas2.py` 192-203 (`F1` to `F6`). -/
noncomputable def Springs.F (p : Springs) : Fin 6 → Mat := six !![p.fx, 0, 0; 0, p.fy, p.fyz; 0, -p.fyz, p.fz]

/-- The phases of the six neighbors. -/
noncomputable def phase6 (q1 q2 : ℝ) : Fin 6 → ℂ :=
  ![cis q1, cis (q1 + q2), cis q2, cis (-q1), cis (-(q1 + q2)), cis (-q2)]

/-- Complex version of a real matrix. -/
def toC (A : Mat) : Matrix (Fin 3) (Fin 3) ℂ := A.map fun r => (r : ℂ)

/-- `elphmod/models/tas2.py` 214 (without reflection): interatomic matrix of type `A`. -/
noncomputable def Springs.interA (p : Springs) (q1 q2 : ℝ) : Matrix (Fin 3) (Fin 3) ℂ :=
  toC (p.A 0) + cis q2 • toC (p.A 1) + cis (-q1) • toC (p.A 2)

/-- `elphmod/models/tas2.py` 253-257: interatomic matrix of type `E`. -/
noncomputable def Springs.interE (p : Springs) (q1 q2 : ℝ) : Matrix (Fin 3) (Fin 3) ℂ :=
  cis (q1 + q2) • toC (p.E 0) + cis (-(q1 - q2)) • toC (p.E 1) + cis (-(q1 + q2)) • toC (p.E 2)

/-- Sum over six neighbors with one minus phases (231-238 and 240-247). -/
noncomputable def both (A : Fin 6 → Mat) (q1 q2 : ℝ) : Matrix (Fin 3) (Fin 3) ℂ :=
  ∑ n, (1 - phase6 q1 q2 n) • toC (A n)

/-- Sum over six neighbors with phases (271-278). -/
noncomputable def inter6 (A : Fin 6 → Mat) (q1 q2 : ℝ) : Matrix (Fin 3) (Fin 3) ℂ :=
  ∑ n, phase6 q1 q2 n • toC (A n)

/-- `elphmod/models/tas2.py` 211-284: dynamical matrix without masses (blocks on and above the diagonal of which the others
follow). -/
noncomputable def Springs.block (p : Springs) (q1 q2 : ℝ) (i j : Fin 3) : Matrix (Fin 3) (Fin 3) ℂ :=
  let intraA := p.A 0 + p.A 1 + p.A 2
  let intraE := p.E 0 + p.E 1 + p.E 2
  let intraF := p.F 0 + p.F 1 + p.F 2 + p.F 3 + p.F 4 + p.F 5
  let m02 := -zreflect (p.interA q1 q2) - zreflect (p.interE q1 q2)
  let m01 := -p.interA q1 q2 - p.interE q1 q2
  let m21 := -toC p.B - inter6 p.F q1 q2
  match i, j with
    | 0, 0 => toC intraA + toC (zreflect intraA) + both p.C q1 q2 + toC intraE + toC (zreflect intraE)
    | 1, 1 => toC intraA.transpose + toC p.B.transpose + both p.D q1 q2 + toC intraE.transpose + toC intraF.transpose
    | 2, 2 => toC (zreflect intraA).transpose + toC p.B + zreflect (both p.D q1 q2) + toC (zreflect intraE).transpose
        + toC intraF
    | 0, 1 => m01
    | 0, 2 => m02
    | 2, 1 => m21
    | 1, 0 => m01.conjTranspose
    | 2, 0 => m02.conjTranspose
    | 1, 2 => m21.conjTranspose

/-- `elphmod/models/tas2.py` 205-294 (`dynamical_matrix`). -/
noncomputable def dynamicalMatrix (p : Springs) (mass : Fin 3 → ℝ) (q1 q2 : ℝ) (i j : Fin 3 × Fin 3) : ℂ :=
  p.block q1 q2 i.1 j.1 i.2 j.2 / (Real.sqrt (mass i.1) : ℂ) / (Real.sqrt (mass j.1) : ℂ)

/-- `elphmod/models/tas2.py` 296-311 (`coupling`). -/
noncomputable def coupling (a beta : ℝ) (t0 : Mat) (mass : Fin 3 → ℝ) (q1 q2 k1 k2 : ℝ) (x : Fin 3 × Fin 3)
    (m n : Fin 3) : ℂ :=
  let K1 := k1 + q1
  let K2 := k2 + q2
  let dt := fun j => ((dt a beta t0 j x m n : ℝ) : ℂ)
  (dt 0 * (cis K1 - cis k1) + dt 3 * (cis (-K1) - cis (-k1))
    + dt 1 * (cis (K1 + K2) - cis (k1 + k2)) + dt 4 * (cis (-(K1 + K2)) - cis (-(k1 + k2)))
    + dt 2 * (cis K2 - cis k2) + dt 5 * (cis (-K2) - cis (-k2))) / (Real.sqrt (mass x.1) : ℂ)

/-! ### Symmetry of the hopping -/

theorem R2_transpose (phi : ℝ) : (R2 phi).transpose = R2 (-phi) := by
  ext x y
  fin_cases x <;> fin_cases y <;> simp [R2]

theorem R2_pi (phi : ℝ) : R2 (phi + Real.pi) = R2 phi := by
  unfold R2
  rw [show 2 * (phi + Real.pi) = 2 * phi + 2 * Real.pi by ring, Real.cos_add_two_pi, Real.sin_add_two_pi]

theorem R2_neg_pi (phi : ℝ) : R2 (-(phi + Real.pi)) = R2 (-phi) := by
  rw [← R2_pi (-(phi + Real.pi))]
  congr 1
  ring

theorem dR2_transpose (phi : ℝ) : (dR2 phi).transpose = -dR2 (-phi) := by
  ext x y
  fin_cases x <;> fin_cases y <;> simp [dR2]

theorem dR2_pi (phi : ℝ) : dR2 (phi + Real.pi) = dR2 phi := by
  unfold dR2
  rw [show 2 * (phi + Real.pi) = 2 * phi + 2 * Real.pi by ring, Real.cos_add_two_pi, Real.sin_add_two_pi]

theorem dR2_neg_pi (phi : ℝ) : dR2 (-(phi + Real.pi)) = dR2 (-phi) := by
  rw [← dR2_pi (-(phi + Real.pi))]
  congr 1
  ring

/-- Hopping in the opposite direction is the transpose. -/
theorem hopping_pi (t0 : Mat) (phi : ℝ) : hopping t0.transpose (phi + Real.pi) = (hopping t0 phi).transpose := by
  unfold hopping
  rw [R2_pi, R2_neg_pi, Matrix.transpose_mul, Matrix.transpose_mul, R2_transpose, R2_transpose, neg_neg, Matrix.mul_assoc]

theorem dtdphi_pi (t0 : Mat) (phi : ℝ) : dtdphi t0.transpose (phi + Real.pi) = (dtdphi t0 phi).transpose := by
  unfold dtdphi
  rw [R2_pi, R2_neg_pi, dR2_pi, dR2_neg_pi]
  simp only [Matrix.transpose_sub, Matrix.transpose_mul, R2_transpose, dR2_transpose, neg_neg, Matrix.mul_assoc,
    Matrix.mul_neg, Matrix.neg_mul]
  abel

theorem derivative_pi (a beta : ℝ) (t0 : Mat) (phi : ℝ) : derivative a beta t0.transpose (phi + Real.pi) =
    (-(derivative a beta t0 phi).1.transpose, -(derivative a beta t0 phi).2.transpose) := by
  simp only [derivative, hopping_pi, dtdphi_pi, Real.cos_add_pi, Real.sin_add_pi, Matrix.transpose_sub,
    Matrix.transpose_add, Matrix.transpose_smul, Prod.mk.injEq]
  constructor <;> ext x y <;> simp <;> ring

/-- The six directions. -/
theorem t_eq (t0 : Mat) : (t t0 3 = (t t0 0).transpose) ∧ (t t0 4 = (t t0 1).transpose) ∧ (t t0 5 = (t t0 2).transpose) := by
  refine ⟨?_, ?_, ?_⟩
  · rw [show t t0 0 = hopping t0 ((0 : ℕ) * 120 * deg) from rfl, ← hopping_pi,
      show t t0 3 = hopping t0.transpose ((120 * (1 : ℕ) + 60) * deg) from rfl]
    congr 1
    unfold deg
    push_cast
    ring
  · rw [show t t0 1 = hopping t0.transpose ((120 * (0 : ℕ) + 60) * deg) from rfl, ← hopping_pi, Matrix.transpose_transpose,
      show t t0 4 = hopping t0 ((2 : ℕ) * 120 * deg) from rfl]
    congr 1
    unfold deg
    push_cast
    ring
  · rw [show t t0 2 = hopping t0 ((1 : ℕ) * 120 * deg) from rfl, ← hopping_pi,
      show t t0 5 = hopping t0.transpose ((120 * (2 : ℕ) + 60) * deg) from rfl]
    congr 1
    unfold deg
    push_cast
    ring

theorem dt_eq (a beta : ℝ) (t0 : Mat) (x : Fin 3 × Fin 3) : (dt a beta t0 3 x = -(dt a beta t0 0 x).transpose) ∧
    (dt a beta t0 4 x = -(dt a beta t0 1 x).transpose) ∧ (dt a beta t0 5 x = -(dt a beta t0 2 x).transpose) := by
  have h : ∀ (phi phi' : ℝ) (t1 : Mat), phi' = phi + Real.pi →
      (if x = (0, 0) then (derivative a beta t1.transpose phi').1 else if x = (0, 1) then
        (derivative a beta t1.transpose phi').2 else 0) =
      -(if x = (0, 0) then (derivative a beta t1 phi).1 else if x = (0, 1) then
        (derivative a beta t1 phi).2 else 0).transpose := by
    intro phi phi' t1 h
    rw [h, derivative_pi]
    split_ifs <;> simp
  refine ⟨?_, ?_, ?_⟩
  · refine h ((0 : ℕ) * 120 * deg) ((120 * (1 : ℕ) + 60) * deg) t0 ?_
    unfold deg
    push_cast
    ring
  · have := h ((120 * (0 : ℕ) + 60) * deg) ((2 : ℕ) * 120 * deg) t0.transpose ?_
    · rw [Matrix.transpose_transpose] at this
      exact this
    · unfold deg
      push_cast
      ring
  · refine h ((1 : ℕ) * 120 * deg) ((120 * (2 : ℕ) + 60) * deg) t0 ?_
    unfold deg
    push_cast
    ring

/-! ### Electrons -/

/-- C58: the Hamiltonian of TaS2 is Hermitian and periodic and obeys time-reversal symmetry. -/
theorem C58_tas2_hamiltonian (ez ex : ℝ) (t0 : Mat) (k1 k2 : ℝ) (a b : Fin 3) :
    star (hamiltonian ez ex t0 k1 k2 a b) = hamiltonian ez ex t0 k1 k2 b a ∧
    hamiltonian ez ex t0 (k1 + 2 * Real.pi) k2 a b = hamiltonian ez ex t0 k1 k2 a b ∧
    hamiltonian ez ex t0 k1 (k2 + 2 * Real.pi) a b = hamiltonian ez ex t0 k1 k2 a b ∧
    hamiltonian ez ex t0 (-k1) (-k2) a b = star (hamiltonian ez ex t0 k1 k2 a b) := by
  obtain ⟨h3, h4, h5⟩ := t_eq t0
  have hd : (Matrix.diagonal ![ez, ex, ex] a b : ℝ) = Matrix.diagonal ![ez, ex, ex] b a :=
    congrFun (congrFun (Matrix.diagonal_transpose ![ez, ex, ex]) b) a
  refine ⟨?_, ?_, ?_, ?_⟩
  · unfold hamiltonian
    rw [h3, h4, h5, hd]
    simp only [RCLike.star_def, map_add, map_mul, Complex.conj_ofReal, cis_conj, Matrix.transpose_apply, neg_neg]
    ring
  · unfold hamiltonian
    rw [show k1 + 2 * Real.pi + k2 = k1 + k2 + 2 * Real.pi by ring]
    simp only [cis_add_two_pi, cis_neg_add_two_pi]
  · unfold hamiltonian
    rw [show k1 + (k2 + 2 * Real.pi) = k1 + k2 + 2 * Real.pi by ring]
    simp only [cis_add_two_pi, cis_neg_add_two_pi]
  · unfold hamiltonian
    simp only [RCLike.star_def, map_add, map_mul, Complex.conj_ofReal, cis_conj, neg_neg, neg_add]

theorem R2_mul (x y : ℝ) : R2 x * R2 y = R2 (x + y) := by
  ext i j
  have h1 : Real.cos (2 * (x + y)) = Real.cos (2 * x) * Real.cos (2 * y) - Real.sin (2 * x) * Real.sin (2 * y) := by
    rw [mul_add, Real.cos_add]
  have h2 : Real.sin (2 * (x + y)) = Real.sin (2 * x) * Real.cos (2 * y) + Real.cos (2 * x) * Real.sin (2 * y) := by
    rw [mul_add, Real.sin_add]
  fin_cases i <;> fin_cases j <;> simp [R2, Matrix.mul_apply, Fin.sum_univ_three, h1, h2] <;> ring

theorem hopping_add (t0 : Mat) (x y : ℝ) : R2 x * hopping t0 y * R2 (-x) = hopping t0 (x + y) := by
  unfold hopping
  rw [← R2_mul x y, neg_add, add_comm (-x), ← R2_mul]
  simp only [Matrix.mul_assoc]

theorem hopping_two_pi (t0 : Mat) (x y : ℝ) (h : y = x + 2 * Real.pi) : hopping t0 y = hopping t0 x := by
  have h1 := hopping_pi t0 x
  have h2 := hopping_pi t0.transpose (x + Real.pi)
  rw [Matrix.transpose_transpose, h1, Matrix.transpose_transpose] at h2
  rw [h, ← h2]
  congr 1
  ring

/-- Rotating a hopping by 120 degrees yields the next but one. -/
theorem t_rotate (t0 : Mat) (j : Fin 6) : R2 (120 * deg) * t t0 j * R2 (-(120 * deg)) = t t0 (j + 2) := by
  fin_cases j
  · refine (hopping_add t0 (120 * deg) ((0 : ℕ) * 120 * deg)).trans ?_
    change _ = hopping t0 ((1 : ℕ) * 120 * deg)
    congr 1
    push_cast
    ring
  · refine (hopping_add t0.transpose (120 * deg) ((120 * (0 : ℕ) + 60) * deg)).trans ?_
    change _ = hopping t0.transpose ((120 * (1 : ℕ) + 60) * deg)
    congr 1
    push_cast
    ring
  · refine (hopping_add t0 (120 * deg) ((1 : ℕ) * 120 * deg)).trans ?_
    change _ = hopping t0 ((2 : ℕ) * 120 * deg)
    congr 1
    push_cast
    ring
  · refine (hopping_add t0.transpose (120 * deg) ((120 * (1 : ℕ) + 60) * deg)).trans ?_
    change _ = hopping t0.transpose ((120 * (2 : ℕ) + 60) * deg)
    congr 1
    push_cast
    ring
  · refine (hopping_add t0 (120 * deg) ((2 : ℕ) * 120 * deg)).trans ?_
    change _ = hopping t0 ((0 : ℕ) * 120 * deg)
    refine hopping_two_pi _ _ _ ?_
    unfold deg
    push_cast
    ring
  · refine (hopping_add t0.transpose (120 * deg) ((120 * (2 : ℕ) + 60) * deg)).trans ?_
    change _ = hopping t0.transpose ((120 * (0 : ℕ) + 60) * deg)
    refine hopping_two_pi _ _ _ ?_
    unfold deg
    push_cast
    ring

theorem sin240 : Real.sin (2 * (120 * deg)) = -(Real.sqrt 3 / 2) := by
  rw [show 2 * (120 * deg) = Real.pi / 3 + Real.pi by unfold deg; ring, Real.sin_add_pi, Real.sin_pi_div_three]

theorem cos240 : Real.cos (2 * (120 * deg)) = -(1 / 2) := by
  rw [show 2 * (120 * deg) = Real.pi / 3 + Real.pi by unfold deg; ring, Real.cos_add_pi, Real.cos_pi_div_three]

theorem onsite_rotate (ez ex : ℝ) : R2 (120 * deg) * Matrix.diagonal ![ez, ex, ex] * R2 (-(120 * deg)) =
    Matrix.diagonal ![ez, ex, ex] := by
  have h := Real.sin_sq_add_cos_sq (2 * (120 * deg))
  ext i j
  rw [Matrix.mul_apply, Fin.sum_univ_three]
  simp only [Matrix.mul_diagonal]
  fin_cases i <;> fin_cases j <;> simp [R2]
  · linear_combination ex * h
  · ring
  · ring
  · linear_combination ex * h

/-- C58: the Hamiltonian of TaS2 has a three-fold rotation axis. -/
theorem C58_tas2_rotation (ez ex : ℝ) (t0 : Mat) (k1 k2 : ℝ) (a b : Fin 3) :
    hamiltonian ez ex t0 (-(k1 + k2)) k1 a b =
      ∑ c, ∑ d, (R2 (120 * deg) a c : ℂ) * hamiltonian ez ex t0 k1 k2 c d * (R2 (120 * deg) b d : ℂ) := by
  have hA : ∀ A : Mat, (((R2 (120 * deg) * A * R2 (-(120 * deg))) a b : ℝ) : ℂ) =
      ∑ c, ∑ d, (R2 (120 * deg) a c : ℂ) * (A c d : ℂ) * (R2 (120 * deg) b d : ℂ) := by
    intro A
    rw [← R2_transpose]
    simp only [Matrix.mul_apply, Matrix.transpose_apply, Finset.sum_mul]
    push_cast
    rw [Finset.sum_comm]
  have hs : ∀ (A : Mat) (z : ℂ), ∑ c, ∑ d, (R2 (120 * deg) a c : ℂ) * ((A c d : ℂ) * z) * (R2 (120 * deg) b d : ℂ) =
      (((R2 (120 * deg) * A * R2 (-(120 * deg))) a b : ℝ) : ℂ) * z := by
    intro A z
    rw [hA, Finset.sum_mul]
    refine Finset.sum_congr rfl fun c _ => ?_
    rw [Finset.sum_mul]
    refine Finset.sum_congr rfl fun d _ => ?_
    ring
  unfold hamiltonian
  simp only [mul_add, add_mul, Finset.sum_add_distrib]
  rw [← hA, onsite_rotate]
  simp only [hs, t_rotate]
  rw [show (0 : Fin 6) + 2 = 2 from rfl, show (3 : Fin 6) + 2 = 5 from rfl, show (1 : Fin 6) + 2 = 3 from rfl,
    show (4 : Fin 6) + 2 = 0 from rfl, show (2 : Fin 6) + 2 = 4 from rfl, show (5 : Fin 6) + 2 = 1 from rfl,
    show -(k1 + k2) + k1 = -k2 by ring, show -(-k2) = k2 by ring, neg_neg]
  ring

/-! ### Coupling -/

/-- C58: the coupling of TaS2 obeys `g(q, k) = g(-q, k + q)^dagger`, is periodic, and vanishes for infinite wavelength. -/
theorem C58_tas2_coupling (a beta : ℝ) (t0 : Mat) (mass : Fin 3 → ℝ) (q1 q2 k1 k2 : ℝ) (x : Fin 3 × Fin 3) (m n : Fin 3) :
    coupling a beta t0 mass q1 q2 k1 k2 x m n =
      star (coupling a beta t0 mass (-q1) (-q2) (k1 + q1) (k2 + q2) x n m) ∧
    coupling a beta t0 mass (q1 + 2 * Real.pi) q2 k1 k2 x m n = coupling a beta t0 mass q1 q2 k1 k2 x m n ∧
    coupling a beta t0 mass q1 (q2 + 2 * Real.pi) k1 k2 x m n = coupling a beta t0 mass q1 q2 k1 k2 x m n ∧
    coupling a beta t0 mass q1 q2 (k1 + 2 * Real.pi) k2 x m n = coupling a beta t0 mass q1 q2 k1 k2 x m n ∧
    coupling a beta t0 mass q1 q2 k1 (k2 + 2 * Real.pi) x m n = coupling a beta t0 mass q1 q2 k1 k2 x m n ∧
    coupling a beta t0 mass 0 0 k1 k2 x m n = 0 ∧ (x.1 ≠ 0 → coupling a beta t0 mass q1 q2 k1 k2 x m n = 0) := by
  obtain ⟨h3, h4, h5⟩ := dt_eq a beta t0 x
  refine ⟨?_, ?_, ?_, ?_, ?_, ?_, fun hx => ?_⟩
  · unfold coupling
    simp only [h3, h4, h5, add_neg_cancel_right]
    simp only [RCLike.star_def, map_add, map_sub, map_mul, map_div₀, map_neg, Complex.conj_ofReal, cis_conj,
      Matrix.transpose_apply, Matrix.neg_apply, neg_neg, Complex.ofReal_neg]
    ring
  · unfold coupling
    simp only
    rw [show k1 + (q1 + 2 * Real.pi) + (k2 + q2) = k1 + q1 + (k2 + q2) + 2 * Real.pi by ring, ← add_assoc]
    simp only [cis_add_two_pi, cis_neg_add_two_pi]
  · unfold coupling
    simp only
    rw [show k1 + q1 + (k2 + (q2 + 2 * Real.pi)) = k1 + q1 + (k2 + q2) + 2 * Real.pi by ring, ← add_assoc k2]
    simp only [cis_add_two_pi, cis_neg_add_two_pi]
  · unfold coupling
    simp only
    rw [show k1 + 2 * Real.pi + q1 + (k2 + q2) = k1 + q1 + (k2 + q2) + 2 * Real.pi by ring,
      show k1 + 2 * Real.pi + q1 = k1 + q1 + 2 * Real.pi by ring, show k1 + 2 * Real.pi + k2 = k1 + k2 + 2 * Real.pi by ring]
    simp only [cis_add_two_pi, cis_neg_add_two_pi]
  · unfold coupling
    simp only
    rw [show k1 + q1 + (k2 + 2 * Real.pi + q2) = k1 + q1 + (k2 + q2) + 2 * Real.pi by ring,
      show k2 + 2 * Real.pi + q2 = k2 + q2 + 2 * Real.pi by ring, show k1 + (k2 + 2 * Real.pi) = k1 + k2 + 2 * Real.pi by ring]
    simp only [cis_add_two_pi, cis_neg_add_two_pi]
  · simp [coupling]
  · have h0 : ∀ j, dt a beta t0 j x = 0 := fun j => by
      unfold dt
      rw [if_neg (fun h => hx (by rw [h])), if_neg (fun h => hx (by rw [h]))]
    simp [coupling, h0]

theorem R2_deriv (phi : ℝ) (x y : Fin 3) : HasDerivAt (fun p => R2 p x y) (dR2 phi x y) phi := by
  have h2 : HasDerivAt (fun p : ℝ => 2 * p) 2 phi := by simpa using (hasDerivAt_id phi).const_mul 2
  have hc := h2.cos
  have hs := h2.sin
  fin_cases x <;> fin_cases y <;> simp [R2, dR2]
  all_goals first
    | exact hasDerivAt_const _ _
    | exact hc.congr_deriv (by ring)
    | exact hs.congr_deriv (by ring)
    | exact hs.neg.congr_deriv (by ring)

theorem R2_neg_deriv (phi : ℝ) (x y : Fin 3) : HasDerivAt (fun p => R2 (-p) x y) (-dR2 (-phi) x y) phi := by
  have h := HasDerivAt.comp (h₂ := fun p => R2 p x y) phi (R2_deriv (-phi) x y) (hasDerivAt_neg phi)
  exact h.congr_deriv (by ring)

theorem hopping_deriv (t0 : Mat) (phi : ℝ) (x y : Fin 3) :
    HasDerivAt (fun p => hopping t0 p x y) (dtdphi t0 phi x y) phi := by
  have h : ∀ p, hopping t0 p x y = ∑ w, ∑ z, R2 p x z * t0 z w * R2 (-p) w y := fun p => by
    simp only [hopping, Matrix.mul_apply, Finset.sum_mul]
  have h' : dtdphi t0 phi x y = ∑ w, ∑ z, (dR2 phi x z * t0 z w * R2 (-phi) w y + R2 phi x z * t0 z w * -dR2 (-phi) w y) := by
    simp only [dtdphi, Matrix.mul_apply, Matrix.sub_apply, Finset.sum_mul, ← Finset.sum_sub_distrib]
    refine Finset.sum_congr rfl fun w _ => Finset.sum_congr rfl fun z _ => ?_
    ring
  rw [h', funext h]
  refine HasDerivAt.fun_sum fun w _ => HasDerivAt.fun_sum fun z _ => ?_
  exact ((R2_deriv phi x z).mul_const (t0 z w)).mul (R2_neg_deriv phi w y)

/-- C58: the derivatives of the hopping are those of orbitals rotating with the bond and of a power law of the bond length:
if a bond with polar coordinates `r`, `phi` moves with time and is at distance `a` now, then its hopping changes
according to the velocity of its end. -/
theorem C58_tas2_derivative (a beta : ℝ) (ha : 0 < a) (t0 : Mat) (r phi : ℝ → ℝ) (s r' phi' : ℝ) (hr : HasDerivAt r r' s)
    (hp : HasDerivAt phi phi' s) (h0 : r s = a) (m n : Fin 3) :
    HasDerivAt (fun s => (r s / a) ^ (-beta) * hopping t0 (phi s) m n)
      ((derivative a beta t0 (phi s)).1 m n * deriv (fun s => r s * Real.cos (phi s)) s +
        (derivative a beta t0 (phi s)).2 m n * deriv (fun s => r s * Real.sin (phi s)) s) s := by
  have h1 := HasDerivAt.comp (h₂ := fun p => hopping t0 p m n) s (hopping_deriv t0 (phi s) m n) hp
  have h2 := (hr.div_const a).rpow_const (p := -beta) (Or.inl (by rw [h0]; exact (div_pos ha ha).ne'))
  have hx := (hr.mul hp.cos).deriv
  have hy := (hr.mul hp.sin).deriv
  have hx' : deriv (fun s => r s * Real.cos (phi s)) s = r' * Real.cos (phi s) + r s * (-Real.sin (phi s) * phi') := hx
  have hy' : deriv (fun s => r s * Real.sin (phi s)) s = r' * Real.sin (phi s) + r s * (Real.cos (phi s) * phi') := hy
  rw [hx', hy']
  refine (h2.mul h1).congr_deriv ?_
  simp only [Function.comp, h0, div_self ha.ne', Real.one_rpow, derivative, Matrix.sub_apply, Matrix.add_apply,
    Matrix.smul_apply, smul_eq_mul]
  have hcs := Real.sin_sq_add_cos_sq (phi s)
  field_simp
  linear_combination (r' * beta * hopping t0 (phi s) m n - a * phi' * dtdphi t0 (phi s) m n) * hcs

/-- C58: the six neighbors are at the distance of the lattice constant in the directions for which the hopping is set up. -/
theorem C58_tas2_geometry (a c : ℝ) (j : Fin 6) (x : Fin 3) :
    let at_ : Fin 3 → Fin 3 → ℝ := ![![a, 0, 0], ![-0.5 * a, 0.5 * Real.sqrt 3 * a, 0], ![0, 0, c * a]]
    let R : Fin 3 → ℝ := ![![1, 0, 0], ![1, 1, 0], ![0, 1, 0], ![-1, 0, 0], ![-1, -1, 0], ![0, -1, 0]] j
    ∑ i, R i * at_ i x = a * ![Real.cos (j.val * (60 * deg)), Real.sin (j.val * (60 * deg)), 0] x := by
  intro at_ R
  have c1 : Real.cos (60 * deg) = 1 / 2 := by
    rw [show 60 * deg = Real.pi / 3 by unfold deg; ring, Real.cos_pi_div_three]
  have s1 : Real.sin (60 * deg) = Real.sqrt 3 / 2 := by
    rw [show 60 * deg = Real.pi / 3 by unfold deg; ring, Real.sin_pi_div_three]
  have c2 : Real.cos (2 * (60 * deg)) = -(1 / 2) := by
    rw [show 2 * (60 * deg) = Real.pi - Real.pi / 3 by unfold deg; ring, Real.cos_pi_sub, Real.cos_pi_div_three]
  have s2 : Real.sin (2 * (60 * deg)) = Real.sqrt 3 / 2 := by
    rw [show 2 * (60 * deg) = Real.pi - Real.pi / 3 by unfold deg; ring, Real.sin_pi_sub, Real.sin_pi_div_three]
  have c3 : Real.cos (3 * (60 * deg)) = -1 := by
    rw [show 3 * (60 * deg) = Real.pi by unfold deg; ring, Real.cos_pi]
  have s3 : Real.sin (3 * (60 * deg)) = 0 := by
    rw [show 3 * (60 * deg) = Real.pi by unfold deg; ring, Real.sin_pi]
  have c4 : Real.cos (4 * (60 * deg)) = -(1 / 2) := by
    rw [show 4 * (60 * deg) = Real.pi / 3 + Real.pi by unfold deg; ring, Real.cos_add_pi, Real.cos_pi_div_three]
  have s4 : Real.sin (4 * (60 * deg)) = -(Real.sqrt 3 / 2) := by
    rw [show 4 * (60 * deg) = Real.pi / 3 + Real.pi by unfold deg; ring, Real.sin_add_pi, Real.sin_pi_div_three]
  have c5 : Real.cos (5 * (60 * deg)) = 1 / 2 := by
    rw [show 5 * (60 * deg) = Real.pi - Real.pi / 3 + Real.pi by unfold deg; ring, Real.cos_add_pi, Real.cos_pi_sub,
      neg_neg, Real.cos_pi_div_three]
  have s5 : Real.sin (5 * (60 * deg)) = -(Real.sqrt 3 / 2) := by
    rw [show 5 * (60 * deg) = Real.pi - Real.pi / 3 + Real.pi by unfold deg; ring, Real.sin_add_pi, Real.sin_pi_sub,
      Real.sin_pi_div_three]
  rw [Fin.sum_univ_three]
  fin_cases j <;> fin_cases x <;> simp [at_, R, c1, s1, c2, s2, c3, s3, c4, s4, c5, s5] <;> ring

/-! ### Phonons -/

theorem R_transpose (phi : ℝ) : (R phi).transpose = R (-phi) := by
  ext x y
  fin_cases x <;> fin_cases y <;> simp [R]

theorem rotate_transpose (A : Mat) (phi : ℝ) : (rotate A phi).transpose = rotate A.transpose phi := by
  unfold rotate
  rw [Matrix.transpose_mul, Matrix.transpose_mul, R_transpose, R_transpose, neg_neg, Matrix.mul_assoc]

theorem rotate_apply (A : Mat) (phi : ℝ) (x y : Fin 3) : rotate A phi x y =
    ∑ w, (∑ z, (![![Real.cos phi, -Real.sin phi, 0], ![Real.sin phi, Real.cos phi, 0], ![0, 0, 1]] : Fin 3 → Fin 3 → ℝ) x z *
      A z w) * (![![Real.cos phi, -Real.sin phi, 0], ![Real.sin phi, Real.cos phi, 0], ![0, 0, 1]] : Fin 3 → Fin 3 → ℝ) y w := by
  unfold rotate
  rw [← R_transpose]
  simp only [Matrix.mul_apply, Matrix.transpose_apply, R, Matrix.of_apply]

theorem cos120 : Real.cos (120 * deg) = -(1 / 2) := by
  rw [show 120 * deg = Real.pi - Real.pi / 3 by unfold deg; ring, Real.cos_pi_sub, Real.cos_pi_div_three]

theorem sin120 : Real.sin (120 * deg) = Real.sqrt 3 / 2 := by
  rw [show 120 * deg = Real.pi - Real.pi / 3 by unfold deg; ring, Real.sin_pi_sub, Real.sin_pi_div_three]

theorem cos240' : Real.cos (240 * deg) = -(1 / 2) := by
  rw [show 240 * deg = 2 * (120 * deg) by ring, cos240]

theorem sin240' : Real.sin (240 * deg) = -(Real.sqrt 3 / 2) := by
  rw [show 240 * deg = 2 * (120 * deg) by ring, sin240]

theorem xreflect_apply {K : Type} [Ring K] (A : Matrix (Fin 3) (Fin 3) K) (x y : Fin 3) :
    xreflect A x y = if (x = 0) ≠ (y = 0) then -A x y else A x y := rfl

theorem zreflect_apply {K : Type} [Ring K] (A : Matrix (Fin 3) (Fin 3) K) (x y : Fin 3) :
    zreflect A x y = if (x = 2) ≠ (y = 2) then -A x y else A x y := rfl

/-- If motion in the `x` direction is decoupled, opposite neighbors are connected by the same matrices. -/
theorem six_eq (a b c d e : ℝ) : let A1 : Mat := !![a, 0, 0; 0, b, c; 0, d, e]
    six A1 3 = six A1 0 ∧ six A1 4 = six A1 1 ∧ six A1 5 = six A1 2 := by
  intro A1
  refine ⟨?_, ?_, ?_⟩
  · change xreflect A1 = A1
    ext x y
    rw [xreflect_apply]
    fin_cases x <;> fin_cases y <;> simp [A1]
  · change rotate A1 (240 * deg) = xreflect (rotate A1 (120 * deg))
    ext x y
    rw [xreflect_apply, rotate_apply, rotate_apply, cos240', sin240', cos120, sin120]
    fin_cases x <;> fin_cases y <;> simp [A1, Fin.sum_univ_three] <;> ring
  · change xreflect (rotate A1 (240 * deg)) = rotate A1 (120 * deg)
    ext x y
    rw [xreflect_apply, rotate_apply, rotate_apply, cos240', sin240', cos120, sin120]
    fin_cases x <;> fin_cases y <;> simp [A1, Fin.sum_univ_three] <;> ring

theorem xreflect_transpose {K : Type} [Ring K] (A : Matrix (Fin 3) (Fin 3) K) :
    (xreflect A).transpose = xreflect A.transpose := by
  ext x y
  simp only [Matrix.transpose_apply, xreflect_apply, ne_comm]

theorem zreflect_transpose {K : Type} [Ring K] (A : Matrix (Fin 3) (Fin 3) K) :
    (zreflect A).transpose = zreflect A.transpose := by
  ext x y
  simp only [Matrix.transpose_apply, zreflect_apply, ne_comm]

theorem six_transpose (A1 : Mat) (n : Fin 6) : (six A1 n).transpose = six A1.transpose n := by
  fin_cases n <;> simp [six, xreflect_transpose, rotate_transpose]

/-- The sum of the six matrices is diagonal. -/
theorem six_sum (a b c d e : ℝ) : let A1 : Mat := !![a, 0, 0; 0, b, c; 0, d, e]
    six A1 0 + six A1 1 + six A1 2 + six A1 3 + six A1 4 + six A1 5 =
      Matrix.diagonal ![3 * (a + b), 3 * (a + b), 6 * e] := by
  intro A1
  obtain ⟨h3, h4, h5⟩ := six_eq a b c d e
  have h : Real.sqrt 3 ^ 2 = 3 := Real.sq_sqrt (by norm_num)
  rw [h3, h4, h5, ← h4]
  change A1 + rotate A1 (240 * deg) + rotate A1 (120 * deg) + A1 + rotate A1 (240 * deg) + rotate A1 (120 * deg) = _
  ext x y
  simp only [Matrix.add_apply]
  rw [rotate_apply, rotate_apply, cos240', sin240', cos120, sin120]
  fin_cases x <;> fin_cases y <;> simp [A1, Fin.sum_univ_three]
  all_goals first
    | linear_combination b * h
    | linear_combination a * h
    | ring

theorem toC_conj (A : Mat) : (toC A).conjTranspose = toC A.transpose := by
  ext x y
  simp [toC]

theorem zreflect_conj (A : Matrix (Fin 3) (Fin 3) ℂ) : (zreflect A).conjTranspose = zreflect A.conjTranspose := by
  ext x y
  simp only [Matrix.conjTranspose_apply, zreflect_apply]
  by_cases h1 : x = 2 <;> by_cases h2 : y = 2 <;> simp [h1, h2]

theorem phase6_conj (q1 q2 : ℝ) (n : Fin 6) : star (phase6 q1 q2 n) = phase6 q1 q2 (n + 3) := by
  fin_cases n <;> simp [phase6, RCLike.star_def, cis_conj] <;> rfl

theorem sum_shift3 {M : Type} [AddCommMonoid M] (f : Fin 6 → M) : ∑ n, f (n + 3) = ∑ n, f n :=
  Fintype.sum_bijective (fun n : Fin 6 => n + 3) (by decide) _ _ fun _ => rfl

/-- Sums over neighbors are Hermitian if opposite matrices are transposes. -/
theorem both_conj (A : Fin 6 → Mat) (h : ∀ n, A (n + 3) = (A n).transpose) (q1 q2 : ℝ) :
    (both A q1 q2).conjTranspose = both A q1 q2 := by
  unfold both
  rw [Matrix.conjTranspose_sum, ← sum_shift3 fun n => (1 - phase6 q1 q2 n) • toC (A n)]
  refine Finset.sum_congr rfl fun n _ => ?_
  rw [Matrix.conjTranspose_smul, toC_conj, h, star_sub, star_one, phase6_conj]

theorem six_opposite (a b c e : ℝ) (n : Fin 6) : six !![a, 0, 0; 0, b, c; 0, c, e] (n + 3) =
    (six !![a, 0, 0; 0, b, c; 0, c, e] n).transpose := by
  have ht : (!![a, 0, 0; 0, b, c; 0, c, e] : Mat).transpose = !![a, 0, 0; 0, b, c; 0, c, e] := by
    ext x y
    fin_cases x <;> fin_cases y <;> rfl
  rw [six_transpose, ht]
  obtain ⟨h3, h4, h5⟩ := six_eq a b c c e
  fin_cases n
  · exact h3
  · exact h4
  · exact h5
  · exact h3.symm
  · exact h4.symm
  · exact h5.symm

theorem diagonal3 (a b c : ℝ) : (Matrix.diagonal ![a, b, c] : Mat) = !![a, 0, 0; 0, b, 0; 0, 0, c] := by
  ext x y
  fin_cases x <;> fin_cases y <;> simp

theorem sumF (p : Springs) : p.F 0 + p.F 1 + p.F 2 + p.F 3 + p.F 4 + p.F 5 =
    Matrix.diagonal ![3 * (p.fx + p.fy), 3 * (p.fx + p.fy), 6 * p.fz] := six_sum _ _ _ _ _

theorem cosA : Real.cos (-30 * deg) = Real.sqrt 3 / 2 ∧ Real.sin (-30 * deg) = -(1 / 2) ∧ Real.cos (90 * deg) = 0 ∧
    Real.sin (90 * deg) = 1 ∧ Real.cos (210 * deg) = -(Real.sqrt 3 / 2) ∧ Real.sin (210 * deg) = -(1 / 2) := by
  refine ⟨?_, ?_, ?_, ?_, ?_, ?_⟩
  · rw [show -30 * deg = -(Real.pi / 6) by unfold deg; ring, Real.cos_neg, Real.cos_pi_div_six]
  · rw [show -30 * deg = -(Real.pi / 6) by unfold deg; ring, Real.sin_neg, Real.sin_pi_div_six]
  · rw [show 90 * deg = Real.pi / 2 by unfold deg; ring, Real.cos_pi_div_two]
  · rw [show 90 * deg = Real.pi / 2 by unfold deg; ring, Real.sin_pi_div_two]
  · rw [show 210 * deg = Real.pi / 6 + Real.pi by unfold deg; ring, Real.cos_add_pi, Real.cos_pi_div_six]
  · rw [show 210 * deg = Real.pi / 6 + Real.pi by unfold deg; ring, Real.sin_add_pi, Real.sin_pi_div_six]

/-- The three bonds between different layers together are isotropic in the plane. -/
theorem sumA (p : Springs) : p.A 0 + p.A 1 + p.A 2 =
    Matrix.diagonal ![3 * (p.ax + p.ay) / 2, 3 * (p.ax + p.ay) / 2, 3 * p.az] := by
  obtain ⟨h1, h2, h3, h4, h5, h6⟩ := cosA
  have h : Real.sqrt 3 ^ 2 = 3 := Real.sq_sqrt (by norm_num)
  ext x y
  simp only [Matrix.add_apply, Springs.A, Matrix.cons_val_zero, Matrix.cons_val_one, Matrix.cons_val]
  rw [rotate_apply, rotate_apply, rotate_apply, h1, h2, h3, h4, h5, h6]
  fin_cases x <;> fin_cases y <;> simp [Fin.sum_univ_three]
  all_goals first
    | linear_combination (p.ax / 2) * h
    | linear_combination (p.ay / 2) * h
    | ring

theorem sumE (p : Springs) : p.E 0 + p.E 1 + p.E 2 = Matrix.diagonal ![3 * p.ex, 3 * p.ex, 3 * p.ez] := by
  have h : ∀ phi, rotate (Matrix.diagonal ![p.ex, p.ex, p.ez]) phi = Matrix.diagonal ![p.ex, p.ex, p.ez] := by
    intro phi
    have h := Real.sin_sq_add_cos_sq phi
    ext x y
    rw [rotate_apply]
    fin_cases x <;> fin_cases y <;> simp [Fin.sum_univ_three]
    · linear_combination p.ex * h
    · ring
    · ring
    · linear_combination p.ex * h
  simp only [Springs.E, h]
  ext x y
  fin_cases x <;> fin_cases y <;> simp <;> ring

theorem zreflect_diagonal (d : Fin 3 → ℝ) : zreflect (Matrix.diagonal d) = Matrix.diagonal d := by
  ext x y
  rw [zreflect_apply]
  by_cases h : x = y
  · subst h
    simp
  · simp [Matrix.diagonal_apply_ne _ h]

theorem block_conj (p : Springs) (q1 q2 : ℝ) (i j : Fin 3) :
    (p.block q1 q2 i j).conjTranspose = p.block q1 q2 j i := by
  have hC : (both p.C q1 q2).conjTranspose = both p.C q1 q2 := both_conj _ (fun n => by
    unfold Springs.C
    rw [diagonal3]
    exact six_opposite _ _ _ _ n) _ _
  have hD : (both p.D q1 q2).conjTranspose = both p.D q1 q2 := both_conj _ (fun n => by
    unfold Springs.D
    rw [neg_zero]
    exact six_opposite _ _ _ _ n) _ _
  fin_cases i <;> fin_cases j <;>
    simp only [Springs.block, sumA, sumE, sumF, Springs.B, zreflect_diagonal, Matrix.conjTranspose_add, toC_conj, hC, hD,
      Matrix.diagonal_transpose, zreflect_conj, Fin.zero_eta, Fin.mk_one, Fin.reduceFinMk, Matrix.conjTranspose_conjTranspose]

/-- C58: the dynamical matrix of TaS2 is Hermitian. -/
theorem C58_tas2_hermitian (p : Springs) (mass : Fin 3 → ℝ) (q1 q2 : ℝ) (i j : Fin 3 × Fin 3) :
    star (dynamicalMatrix p mass q1 q2 i j) = dynamicalMatrix p mass q1 q2 j i := by
  have h : star (p.block q1 q2 i.1 j.1 i.2 j.2) = p.block q1 q2 j.1 i.1 j.2 i.2 := by
    have := congrFun (congrFun (block_conj p q1 q2 i.1 j.1) j.2) i.2
    rwa [Matrix.conjTranspose_apply] at this
  unfold dynamicalMatrix
  rw [← h]
  simp only [RCLike.star_def, map_div₀, Complex.conj_ofReal]
  rw [div_right_comm]

theorem phase6_periodic (q1 q2 : ℝ) : phase6 (q1 + 2 * Real.pi) q2 = phase6 q1 q2 ∧
    phase6 q1 (q2 + 2 * Real.pi) = phase6 q1 q2 := by
  unfold phase6
  rw [show q1 + 2 * Real.pi + q2 = q1 + q2 + 2 * Real.pi by ring, show q1 + (q2 + 2 * Real.pi) = q1 + q2 + 2 * Real.pi by ring]
  simp only [cis_add_two_pi, cis_neg_add_two_pi, and_self]

/-- C58: the dynamical matrix of TaS2 is periodic. -/
theorem C58_tas2_periodic (p : Springs) (mass : Fin 3 → ℝ) (q1 q2 : ℝ) (i j : Fin 3 × Fin 3) :
    dynamicalMatrix p mass (q1 + 2 * Real.pi) q2 i j = dynamicalMatrix p mass q1 q2 i j ∧
    dynamicalMatrix p mass q1 (q2 + 2 * Real.pi) i j = dynamicalMatrix p mass q1 q2 i j := by
  have hA : p.interA (q1 + 2 * Real.pi) q2 = p.interA q1 q2 ∧ p.interA q1 (q2 + 2 * Real.pi) = p.interA q1 q2 := by
    unfold Springs.interA
    rw [cis_neg_add_two_pi, cis_add_two_pi]
    exact ⟨rfl, rfl⟩
  have hE : p.interE (q1 + 2 * Real.pi) q2 = p.interE q1 q2 ∧ p.interE q1 (q2 + 2 * Real.pi) = p.interE q1 q2 := by
    unfold Springs.interE
    rw [show q1 + 2 * Real.pi + q2 = q1 + q2 + 2 * Real.pi by ring, show q1 + (q2 + 2 * Real.pi) = q1 + q2 + 2 * Real.pi by ring,
      show q1 + 2 * Real.pi - q2 = q1 - q2 + 2 * Real.pi by ring, show -(q1 - (q2 + 2 * Real.pi)) = -(q1 - q2) + 2 * Real.pi by ring]
    simp only [cis_add_two_pi, cis_neg_add_two_pi, and_self]
  obtain ⟨h1, h2⟩ := phase6_periodic q1 q2
  unfold dynamicalMatrix Springs.block both inter6
  simp only [hA.1, hA.2, hE.1, hE.2, h1, h2, and_self]

theorem zreflect_map (A : Matrix (Fin 3) (Fin 3) ℂ) : (zreflect A).map star = zreflect (A.map star) := by
  ext x y
  simp only [Matrix.map_apply, zreflect_apply]
  by_cases h1 : x = 2 <;> by_cases h2 : y = 2 <;> simp [h1, h2]

/-- C58: the dynamical matrix of TaS2 belongs to real force constants. -/
theorem C58_tas2_real (p : Springs) (mass : Fin 3 → ℝ) (q1 q2 : ℝ) (i j : Fin 3 × Fin 3) :
    dynamicalMatrix p mass (-q1) (-q2) i j = star (dynamicalMatrix p mass q1 q2 i j) := by
  have hA : ∀ x y, p.interA (-q1) (-q2) x y = star (p.interA q1 q2 x y) := fun x y => by
    simp [Springs.interA, toC, cis_conj]
  have hE : ∀ x y, p.interE (-q1) (-q2) x y = star (p.interE q1 q2 x y) := fun x y => by
    simp only [Springs.interE, Matrix.add_apply, Matrix.smul_apply, smul_eq_mul, toC, Matrix.map_apply, RCLike.star_def,
      map_add, map_mul, Complex.conj_ofReal, cis_conj, neg_neg]
    congr 3
    · congr 1
      ring
    · congr 1
      ring
    · ring
  have hp : ∀ n, phase6 (-q1) (-q2) n = star (phase6 q1 q2 n) := fun n => by
    fin_cases n <;> simp [phase6, cis_conj]
    all_goals
      congr 1
      ring
  have hb : ∀ A x y, both A (-q1) (-q2) x y = star (both A q1 q2 x y) := fun A x y => by
    simp only [both, Matrix.sum_apply, Matrix.smul_apply, smul_eq_mul, star_sum, star_mul', star_sub, star_one, hp, toC,
      Matrix.map_apply, RCLike.star_def, Complex.conj_ofReal]
  have hi : ∀ A x y, inter6 A (-q1) (-q2) x y = star (inter6 A q1 q2 x y) := fun A x y => by
    simp only [inter6, Matrix.sum_apply, Matrix.smul_apply, smul_eq_mul, star_sum, star_mul', hp, toC,
      Matrix.map_apply, RCLike.star_def, Complex.conj_ofReal]
  have hc : ∀ (A : Mat) x y, star (toC A x y) = toC A x y := fun A x y => by
    simp [toC]
  have hz : ∀ (A B : Matrix (Fin 3) (Fin 3) ℂ) x y, (∀ x y, A x y = star (B x y)) →
      zreflect A x y = star (zreflect B x y) := fun A B x y h => by
    rw [zreflect_apply, zreflect_apply, h, apply_ite star, star_neg]
  have h : p.block (-q1) (-q2) i.1 j.1 i.2 j.2 = star (p.block q1 q2 i.1 j.1 i.2 j.2) := by
    obtain ⟨i, x⟩ := i
    obtain ⟨j, y⟩ := j
    fin_cases i <;> fin_cases j <;>
      simp only [Springs.block, Fin.zero_eta, Fin.mk_one, Fin.reduceFinMk, Matrix.add_apply, Matrix.sub_apply, Matrix.neg_apply,
        Matrix.conjTranspose_apply, star_add, star_sub, star_neg, star_star, hc, hA, hE, hb, hi, hz _ _ _ _ hA, hz _ _ _ _ hE,
        hz _ _ _ _ (hb _)]
  unfold dynamicalMatrix
  rw [h]
  simp only [RCLike.star_def, map_div₀, Complex.conj_ofReal]

/-- C58: the dynamical matrix of TaS2 obeys the acoustic sum rule. -/
theorem C58_tas2_sum_rule (p : Springs) (mass : Fin 3 → ℝ) (hm : ∀ i, 0 < mass i) (i : Fin 3 × Fin 3) (y : Fin 3) :
    ∑ j, dynamicalMatrix p mass 0 0 i (j, y) * (Real.sqrt (mass j) : ℂ) = 0 := by
  have hc : ∀ n, phase6 0 0 n = 1 := fun n => by
    fin_cases n <;> simp [phase6]
  have hb : ∀ A, both A 0 0 = 0 := fun A => by
    simp [both, hc]
  have hA : p.interA 0 0 = toC (p.A 0 + p.A 1 + p.A 2) := by
    ext x y
    simp [Springs.interA, toC]
  have hE : p.interE 0 0 = toC (p.E 0 + p.E 1 + p.E 2) := by
    ext x y
    simp [Springs.interE, toC]
  have hF : inter6 p.F 0 0 = toC (p.F 0 + p.F 1 + p.F 2 + p.F 3 + p.F 4 + p.F 5) := by
    ext x y
    simp [inter6, hc, toC, Fin.sum_univ_six]
  have hz : ∀ A : Mat, zreflect (toC A) = toC (zreflect A) := fun A => by
    ext x y
    simp only [zreflect_apply, toC, Matrix.map_apply]
    rw [apply_ite Complex.ofReal, Complex.ofReal_neg]
  have hs : p.block 0 0 i.1 0 i.2 y + p.block 0 0 i.1 1 i.2 y + p.block 0 0 i.1 2 i.2 y = 0 := by
    obtain ⟨i, x⟩ := i
    have h0 : zreflect (0 : Matrix (Fin 3) (Fin 3) ℂ) = 0 := by
      ext x y
      simp [zreflect_apply]
    fin_cases i <;>
      simp only [Springs.block, hA, hE, hF, hb, hz, sumA, sumE, sumF, Springs.B, zreflect_diagonal, h0, Fin.zero_eta, Fin.mk_one,
        Fin.reduceFinMk, Matrix.conjTranspose_sub, Matrix.conjTranspose_neg, toC_conj, Matrix.diagonal_transpose, Matrix.add_apply,
        Matrix.sub_apply, Matrix.neg_apply, Matrix.zero_apply] <;> ring
  have hn : ∀ j, (Real.sqrt (mass j) : ℂ) ≠ 0 := fun j => by
    exact_mod_cast (Real.sqrt_pos.2 (hm j)).ne'
  rw [Fin.sum_univ_three]
  simp only [dynamicalMatrix, div_mul_cancel₀ _ (hn _)]
  rw [← add_div, ← add_div, hs, zero_div]

/-- Masses of tantalum and sulfur atoms and a wave vector for which the coupling does not vanish. -/
example : (∀ i, 0 < (![180.95, 32.06, 32.06] : Fin 3 → ℝ) i) ∧
    coupling 1 5 1 (fun _ => 1) (Real.pi / 2) 0 0 0 (0, 0) 0 0 ≠ 0 := by
  refine ⟨fun i => by fin_cases i <;> norm_num, ?_⟩
  have h : cis (Real.pi / 2) = I := by
    unfold cis
    rw [mul_comm]
    push_cast
    exact Complex.exp_pi_div_two_mul_I
  have h' : cis (-(Real.pi / 2)) = -I := by
    rw [← cis_conj, h]
    simp
  obtain ⟨h3, h4, -⟩ := dt_eq 1 5 1 (0, 0)
  have hd : ∀ phi, (derivative 1 5 1 phi).1 0 0 = -(Real.cos phi * 5) := fun phi => by
    have h1 : hopping 1 phi = 1 := by
      simp only [hopping, Matrix.mul_one, R2_mul, add_neg_cancel]
      ext x y
      fin_cases x <;> fin_cases y <;> simp [R2]
    have h2 : dtdphi 1 phi 0 0 = 0 := by
      simp [dtdphi, Matrix.mul_apply, Fin.sum_univ_three, R2, dR2]
    simp [derivative, h1, h2]
  have h0 : dt 1 5 1 0 (0, 0) 0 0 = -5 := by
    have : dt 1 5 1 0 (0, 0) = (derivative 1 5 1 ((0 : ℕ) * 120 * deg)).1 := rfl
    rw [this, hd]
    simp
  have h1 : dt 1 5 1 1 (0, 0) 0 0 = -(1 / 2 * 5) := by
    have : dt 1 5 1 1 (0, 0) = (derivative 1 5 (1 : Mat).transpose ((120 * (0 : ℕ) + 60) * deg)).1 := rfl
    rw [this, Matrix.transpose_one, hd, show (120 * (0 : ℕ) + 60) * deg = Real.pi / 3 by unfold deg; push_cast; ring,
      Real.cos_pi_div_three]
  simp only [coupling, h3, h4, zero_add, add_zero, h, h', Matrix.neg_apply, Matrix.transpose_apply, h0, h1, neg_zero, cis_zero,
    sub_self, mul_zero, Real.sqrt_one, Complex.ofReal_one, div_one]
  intro hI
  have := congrArg Complex.im hI
  norm_num at this

end Verif.Models.TaS2
