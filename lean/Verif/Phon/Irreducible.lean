import Verif.Mesh.Props
import Verif.Bravais.Props
import Verif.Text.Model
import Mathlib.Analysis.SpecialFunctions.Complex.Circle
import Mathlib.Data.Matrix.Basis
import Mathlib.LinearAlgebra.Matrix.Kronecker
import Mathlib.Data.Finsupp.Basic

/-!
# C124: Dynamical matrices on the whole mesh from those at irreducible points

Model of the first part of `elphmod/ph.py` `q2r` (two-dimensional lattices). The second part (`D_full` given) is in
`Verif.Phon.Model`.
-/

namespace Verif.Irr

open Verif.Mesh hiding rotate dot2
open Verif.Bravais
open scoped Matrix Kronecker

/-- Dynamical matrix, indices are atom and direction. -/
abbrev DM (nat : Nat) := Matrix (Fin nat × Fin 3) (Fin nat × Fin 3) ℂ

/-! ### Model -/

/-- `elphmod/ph.py` 1876-1881: rotation matrix. -/
noncomputable def block (phi : ℝ) : Matrix (Fin 3) (Fin 3) ℝ :=
  !![Real.cos phi, -Real.sin phi, 0; Real.sin phi, Real.cos phi, 0; 0, 0, 1]

/-- `elphmod/ph.py` 1875-1883 (`rotation`): the rotation matrix for all atoms. -/
noncomputable def rotation (phi : ℝ) (n : Nat) : Matrix (Fin n × Fin 3) (Fin n × Fin 3) ℝ :=
  (1 : Matrix (Fin n) (Fin n) ℝ) ⊗ₖ block phi

/-- `elphmod/ph.py` 1885-1886 (`reflection`) for one atom. -/
def reflBlock : Matrix (Fin 3) (Fin 3) ℝ := Matrix.diagonal ![-1, 1, 1]

/-- `elphmod/ph.py` 1885-1886 (`reflection`). -/
def reflection (n : Nat) : Matrix (Fin n × Fin 3) (Fin n × Fin 3) ℝ := Matrix.diagonal fun p => ![-1, 1, 1] p.2

/-- `elphmod/ph.py` 1888-1889 (`apply`). -/
noncomputable def apply {n : Nat} (A : DM n) (U : Matrix (Fin n × Fin 3) (Fin n × Fin 3) ℝ) : DM n :=
  U.map Complex.ofReal * A * (U.map Complex.ofReal)ᴴ

/-- `np.dot(B[:2, :2], q)` (`elphmod/ph.py` 1906, 1910). -/
def part (B : Matrix (Fin 3) (Fin 3) ℝ) (q : R2) : R2 := fun i => ∑ j : Fin 2, B i.castSucc j.castSucc * q j

/-- Angle between the mesh axes in degrees. -/
def degrees : Angle → ℝ
  | .a60 => 60
  | .a90 => 90
  | .a120 => 120

/-- `elphmod/ph.py` 1891: lattice vectors. -/
noncomputable def vectors (angle : Angle) : R2 × R2 := translations (180 - degrees angle) 0

/-- `elphmod/ph.py` 1900: angles of rotation. -/
noncomputable def angles : Angle → List ℝ
  | .a90 => [0]
  | _ => [0, 2 * Real.pi / 3, 4 * Real.pi / 3]

/-- `int(round(x))`: integers next to the number, in case of doubt the even one. -/
noncomputable def pyRound (x : ℝ) : ℤ :=
  if Int.fract x = 1 / 2 then if Even ⌊x⌋ then ⌊x⌋ else ⌊x⌋ + 1 else ⌊x + 1 / 2⌋

/-- `elphmod/ph.py` 1904-1925: assignments for one irreducible point, one rotation and with or without reflection. `r` are
the positions of the atoms in the plane in units of the lattice constant (1894). Each row and each column is multiplied once by
the phase of its atom (1917-1919). -/
noncomputable def assign (angle : Angle) (nq : Nat) {nat : Nat} (r : Fin nat → R2) (q12 : ℝ × ℝ) (D0 : DM nat) (phi : ℝ)
    (reflect : Bool) : List (ℤ × ℤ × DM nat) :=
  let a := vectors angle
  let b := reciprocals2 a.1 a.2
  let scale := nq / (2 * Real.pi)
  let q0 : R2 := fun i => q12.1 * b.1 i + q12.2 * b.2 i
  let q := part (block phi) q0
  let D := apply D0 (rotation phi nat)
  let q' := if reflect then part reflBlock q else q
  let D' := if reflect then apply D (reflection nat) else D
  let phase := fun n => Complex.exp (Complex.I * (dot2 (fun i => q0 i - q' i) (r n) : ℝ))
  let D'' : DM nat := fun p p' => D' p p' * star (phase p.1) * phase p'.1
  let Q1 := pyRound (dot2 q' a.1 * scale)
  let Q2 := pyRound (dot2 q' a.2 * scale)
  [(Q1, Q2, D''), (-Q1, -Q2, fun p p' => star (D'' p p'))]

/-- `elphmod/ph.py` 1902-1925: all assignments in order. -/
noncomputable def assigns (angle : Angle) (nq : Nat) {nat : Nat} (r : Fin nat → R2) (irr : List ((ℝ × ℝ) × DM nat)) :
    List (ℤ × ℤ × DM nat) :=
  irr.flatMap fun x => (angles angle).flatMap fun phi => [false, true].flatMap fun reflect =>
    assign angle nq r x.1 x.2 phi reflect

/-- `D_full[Q1, Q2] = D`. Entries which have not been set yet (`np.empty`) are `none`. An index out of range raises an
exception. -/
def put (nq : Nat) {α : Type} (t : Nat → Nat → Option α) (w : ℤ × ℤ × α) : Option (Nat → Nat → Option α) := do
  let i ← Verif.Text.pyIndex nq w.1
  let j ← Verif.Text.pyIndex nq w.2.1
  some fun a b => if a = i ∧ b = j then some w.2.2 else t a b

/-- `elphmod/ph.py` 1869-1925 (`q2r`): dynamical matrices on the whole mesh. -/
noncomputable def full (angle : Angle) (nq : Nat) {nat : Nat} (r : Fin nat → R2) (irr : List ((ℝ × ℝ) × DM nat)) :
    Option (Nat → Nat → Option (DM nat)) :=
  (assigns angle nq r irr).foldlM (put nq) fun _ _ => none

/-! ### Specification -/

/-- Atoms in the plane (in units of the lattice constant) and force constants between the atom `n` in the home cell and the atom
`m` in the given cell. -/
structure Crystal (nat : Nat) where
  r : Fin nat → R2
  force : Fin nat → Fin nat → (ℤ × ℤ →₀ Matrix (Fin 3) (Fin 3) ℝ)

/-- Lattice vector. -/
def pos (a : R2 × R2) (R : ℤ × ℤ) : R2 := fun i => R.1 * a.1 i + R.2 * a.2 i

/-- Dynamical matrix at a mesh point. -/
noncomputable def Crystal.D {nat : Nat} (c : Crystal nat) (nq : Nat) (Q1 Q2 : ℤ) : DM nat := fun p p' =>
  (c.force p.1 p'.1).sum fun R F => (F p.2 p'.2 : ℂ) *
    Complex.exp (Complex.I * ((2 * Real.pi * (Q1 * R.1 + Q2 * R.2) / nq : ℝ) : ℂ))

/-- The bonds between two atoms and their images are mapped onto each other, together with the force constants. -/
def Crystal.Symmetric {nat : Nat} (c : Crystal nat) (a : R2 × R2) (B : Matrix (Fin 3) (Fin 3) ℝ) : Prop :=
  ∀ n m, ∃ f : (ℤ × ℤ) ≃ (ℤ × ℤ), ∀ R,
    (∀ i : Fin 2, ∑ j : Fin 2, B i.castSucc j.castSucc * (pos a R j + c.r m j - c.r n j) = pos a (f R) i + c.r m i - c.r n i) ∧
    c.force n m (f R) = B * c.force n m R * Bᵀ

/-- Rotation by 120 degrees. -/
noncomputable def turn : Matrix (Fin 3) (Fin 3) ℝ := !![-1 / 2, -√3 / 2, 0; √3 / 2, -1 / 2, 0; 0, 0, 1]

/-- Reflection of the first axis. -/
def mirror : Matrix (Fin 3) (Fin 3) ℝ := !![-1, 0, 0; 0, 1, 0; 0, 0, 1]

/-- Lattice vectors with the given angle between the axes of the mesh in reciprocal space. -/
noncomputable def lattice : Angle → R2 × R2
  | .a60 => (![1, 0], ![-1 / 2, √3 / 2])
  | .a90 => (![1, 0], ![0, 1])
  | .a120 => (![1, 0], ![1 / 2, √3 / 2])

/-! ### Lattice -/

theorem cos_120 : Real.cos (2 * Real.pi / 3) = -1 / 2 := by
  rw [show 2 * Real.pi / 3 = Real.pi - Real.pi / 3 by ring, Real.cos_pi_sub, Real.cos_pi_div_three]; ring

theorem sin_120 : Real.sin (2 * Real.pi / 3) = √3 / 2 := by
  rw [show 2 * Real.pi / 3 = Real.pi - Real.pi / 3 by ring, Real.sin_pi_sub, Real.sin_pi_div_three]

theorem cos_240 : Real.cos (4 * Real.pi / 3) = -1 / 2 := by
  rw [show 4 * Real.pi / 3 = Real.pi / 3 + Real.pi by ring, Real.cos_add_pi, Real.cos_pi_div_three]; ring

theorem sin_240 : Real.sin (4 * Real.pi / 3) = -√3 / 2 := by
  rw [show 4 * Real.pi / 3 = Real.pi / 3 + Real.pi by ring, Real.sin_add_pi, Real.sin_pi_div_three]; ring

theorem vectors_eq (angle : Angle) : vectors angle = lattice angle := by
  have h0 : rotate ![1, 0] (0 * deg) = ![1, 0] := by
    funext i
    fin_cases i <;> simp [rotate]
  cases angle
  · have e : (180 - 60) * deg = 2 * Real.pi / 3 := by unfold deg; ring
    simp only [vectors, translations, degrees, lattice, h0, e, rotate, cos_120, sin_120, Matrix.cons_val_zero, Matrix.cons_val_one]
    norm_num
  · have e : (180 - 90) * deg = Real.pi / 2 := by unfold deg; ring
    simp only [vectors, translations, degrees, lattice, h0, e, rotate, Real.cos_pi_div_two, Real.sin_pi_div_two, Matrix.cons_val_zero, Matrix.cons_val_one]
    norm_num
  · have e : (180 - 120) * deg = Real.pi / 3 := by unfold deg; ring
    simp only [vectors, translations, degrees, lattice, h0, e, rotate, Real.cos_pi_div_three, Real.sin_pi_div_three, Matrix.cons_val_zero, Matrix.cons_val_one]
    norm_num

theorem lattice_det (angle : Angle) : (lattice angle).1 0 * (lattice angle).2 1 - (lattice angle).1 1 * (lattice angle).2 0 ≠ 0 := by
  have h3 : (0 : ℝ) < √3 := Real.sqrt_pos.2 (by norm_num)
  cases angle <;> simp [lattice]

/-- Components of the wave vector. -/
theorem q0_dot (angle : Angle) (x : ℝ × ℝ) :
    dot2 (fun i => x.1 * (reciprocals2 (lattice angle).1 (lattice angle).2).1 i +
      x.2 * (reciprocals2 (lattice angle).1 (lattice angle).2).2 i) (lattice angle).1 = x.1 ∧
    dot2 (fun i => x.1 * (reciprocals2 (lattice angle).1 (lattice angle).2).1 i +
      x.2 * (reciprocals2 (lattice angle).1 (lattice angle).2).2 i) (lattice angle).2 = x.2 := by
  obtain ⟨h1, h2, h3, h4⟩ := C30_reciprocals_2d _ _ (lattice_det angle)
  simp only [dot2] at *
  constructor
  · linear_combination x.1 * h1 + x.2 * h2
  · linear_combination x.1 * h3 + x.2 * h4

/-! ### Operations -/

/-- Matrix of an operation. -/
noncomputable def op (phi : ℝ) (reflect : Bool) : Matrix (Fin 3) (Fin 3) ℝ := if reflect then reflBlock * block phi else block phi

theorem part_mul (B B' : Matrix (Fin 3) (Fin 3) ℝ) (h : ∀ i : Fin 2, B' i.castSucc 2 = 0) (q : R2) : part (B' * B) q = part B' (part B q) := by
  funext i
  simp only [part, Matrix.mul_apply, Fin.sum_univ_three, Fin.sum_univ_two]
  have := h i
  fin_cases i <;> simp at this ⊢ <;> simp [this] <;> ring

theorem reflBlock_eq : reflBlock = mirror := by
  ext i j
  fin_cases i <;> fin_cases j <;> simp [reflBlock, mirror]

/-- Operations leave lengths invariant and the third axis alone. -/
structure Planar (B : Matrix (Fin 3) (Fin 3) ℝ) : Prop where
  right : ∀ i : Fin 2, B i.castSucc 2 = 0
  orth : ∀ u v : R2, dot2 (part B u) (part B v) = dot2 u v

theorem Planar.mul {B B' : Matrix (Fin 3) (Fin 3) ℝ} (h : Planar B) (h' : Planar B') : Planar (B' * B) where
  right := fun i => by
    rw [Matrix.mul_apply, Fin.sum_univ_three]
    have h0 := h.right 0
    have h1 := h.right 1
    have h2 := h'.right i
    simp only [Fin.castSucc_zero, Fin.castSucc_one] at h0 h1
    rw [h0, h1, h2]
    ring
  orth := fun u v => by rw [part_mul _ _ h'.right, part_mul _ _ h'.right, h'.orth, h.orth]

theorem planar_block (phi : ℝ) : Planar (block phi) where
  right := fun i => by fin_cases i <;> simp [block]
  orth := fun u v => by
    have := Real.sin_sq_add_cos_sq phi
    simp only [dot2, part, block, Fin.sum_univ_two]
    simp
    linear_combination (u 0 * v 0 + u 1 * v 1) * this

theorem planar_refl : Planar reflBlock where
  right := fun i => by fin_cases i <;> simp [reflBlock]
  orth := fun u v => by
    simp only [dot2, part, reflBlock, Fin.sum_univ_two]
    simp

theorem planar_op (phi : ℝ) (reflect : Bool) : Planar (op phi reflect) := by
  unfold op
  split
  · exact (planar_block phi).mul planar_refl
  · exact planar_block phi

theorem Crystal.Symmetric.mul {nat : Nat} {c : Crystal nat} {a : R2 × R2} {B B' : Matrix (Fin 3) (Fin 3) ℝ}
    (hp : ∀ i : Fin 2, B' i.castSucc 2 = 0) (h : c.Symmetric a B) (h' : c.Symmetric a B') : c.Symmetric a (B' * B) := by
  intro n m
  obtain ⟨f, hf⟩ := h n m
  obtain ⟨f', hf'⟩ := h' n m
  refine ⟨f.trans f', fun R => ⟨fun i => ?_, ?_⟩⟩
  · have e := congrFun (part_mul B B' hp fun j => pos a R j + c.r m j - c.r n j) i
    have e1 : part B (fun j => pos a R j + c.r m j - c.r n j) = fun j => pos a (f R) j + c.r m j - c.r n j :=
      funext fun i => (hf R).1 i
    rw [e1] at e
    exact e.trans ((hf' (f R)).1 i)
  · rw [Equiv.trans_apply, (hf' (f R)).2, (hf R).2, Matrix.transpose_mul]
    simp only [Matrix.mul_assoc]

theorem block_zero : block 0 = 1 := by
  ext i j
  fin_cases i <;> fin_cases j <;> simp [block]

theorem block_120 : block (2 * Real.pi / 3) = turn := by
  rw [block, cos_120, sin_120, turn]
  ext i j
  fin_cases i <;> fin_cases j <;> simp
  ring

theorem block_240 : block (4 * Real.pi / 3) = turn * turn := by
  have h3 : √3 * √3 = 3 := Real.mul_self_sqrt (by norm_num)
  rw [block, cos_240, sin_240, turn]
  ext i j
  fin_cases i <;> fin_cases j <;> simp [Matrix.mul_apply, Fin.sum_univ_three] <;> ring_nf
  all_goals (try rw [Real.sq_sqrt (by norm_num)]) <;> norm_num

theorem Crystal.symmetric_one {nat : Nat} (c : Crystal nat) (a : R2 × R2) : c.Symmetric a 1 := by
  intro n m
  refine ⟨Equiv.refl _, fun R => ⟨fun i => ?_, by simp⟩⟩
  fin_cases i <;> simp [Fin.sum_univ_two, Matrix.one_apply]

theorem symmetric_op {nat : Nat} (c : Crystal nat) (angle : Angle) (hm : c.Symmetric (lattice angle) mirror)
    (ht : angle ≠ .a90 → c.Symmetric (lattice angle) turn) (phi : ℝ) (hphi : phi ∈ angles angle) (reflect : Bool) :
    c.Symmetric (lattice angle) (op phi reflect) := by
  have hb : c.Symmetric (lattice angle) (block phi) := by
    have hturn : ∀ i : Fin 2, turn i.castSucc 2 = 0 := fun i => by fin_cases i <;> simp [turn]
    have h3 : angle ≠ .a90 → phi ∈ [0, 2 * Real.pi / 3, 4 * Real.pi / 3] → c.Symmetric (lattice angle) (block phi) := by
      intro hne hmem
      simp only [List.mem_cons, List.not_mem_nil, or_false] at hmem
      rcases hmem with rfl | rfl | rfl
      · rw [block_zero]
        exact c.symmetric_one _
      · rw [block_120]
        exact ht hne
      · rw [block_240]
        exact (ht hne).mul hturn (ht hne)
    cases angle
    · exact h3 (by decide) hphi
    · simp only [angles, List.mem_cons, List.not_mem_nil, or_false] at hphi
      subst hphi
      rw [block_zero]
      exact c.symmetric_one _
    · exact h3 (by decide) hphi
  unfold op
  split
  · rw [← reflBlock_eq] at hm
    exact hb.mul planar_refl.right hm
  · exact hb

/-! ### Transformation of the dynamical matrix -/

/-- Matrix for all atoms. -/
noncomputable def kron (n : Nat) (B : Matrix (Fin 3) (Fin 3) ℝ) : Matrix (Fin n × Fin 3) (Fin n × Fin 3) ℝ :=
  (1 : Matrix (Fin n) (Fin n) ℝ) ⊗ₖ B

theorem reflection_eq (n : Nat) : reflection n = kron n reflBlock := by
  ext ⟨i, x⟩ ⟨j, y⟩
  simp only [reflection, kron, reflBlock, Matrix.diagonal_apply, Matrix.kroneckerMap_apply, Matrix.one_apply, Prod.mk.injEq]
  by_cases h : i = j <;> by_cases h' : x = y <;> simp [h, h']

theorem apply_kron {n : Nat} (A : DM n) (B : Matrix (Fin 3) (Fin 3) ℝ) (p p' : Fin n × Fin 3) :
    apply A (kron n B) p p' = ∑ x, ∑ y, (B p.2 x : ℂ) * A (p.1, x) (p'.1, y) * B p'.2 y := by
  have h1 : ∀ s, ((kron n B).map Complex.ofReal * A) p s = ∑ x, (B p.2 x : ℂ) * A (p.1, x) s := by
    intro s
    rw [Matrix.mul_apply, Fintype.sum_prod_type, Finset.sum_eq_single p.1]
    · exact Finset.sum_congr rfl fun x _ => by simp [kron]
    · intro i _ hi
      exact Finset.sum_eq_zero fun x _ => by simp [kron, Matrix.one_apply, hi.symm]
    · simp
  rw [apply, Matrix.mul_apply, Fintype.sum_prod_type, Finset.sum_eq_single p'.1]
  · rw [Finset.sum_comm]
    refine Finset.sum_congr rfl fun y _ => ?_
    rw [h1, Finset.sum_mul]
    exact Finset.sum_congr rfl fun x _ => by simp [kron]
  · intro i _ hi
    exact Finset.sum_eq_zero fun x _ => by simp [kron, Matrix.one_apply, hi.symm]
  · simp

theorem apply_mul {n : Nat} (A : DM n) (B B' : Matrix (Fin 3) (Fin 3) ℝ) :
    apply (apply A (kron n B)) (kron n B') = apply A (kron n (B' * B)) := by
  have e : (kron n (B' * B)).map Complex.ofReal = (kron n B').map Complex.ofReal * (kron n B).map Complex.ofReal := by
    have : kron n (B' * B) = kron n B' * kron n B := by
      unfold kron
      rw [← Matrix.mul_kronecker_mul, Matrix.one_mul]
    rw [this]
    exact Matrix.map_mul (f := Complex.ofRealHom)
  simp only [apply, e, Matrix.conjTranspose_mul, Matrix.mul_assoc]

/-- Dynamical matrix for Cartesian wave vectors. -/
noncomputable def Crystal.cart {nat : Nat} (c : Crystal nat) (a : R2 × R2) (q : R2) : DM nat := fun p p' =>
  (c.force p.1 p'.1).sum fun R F => (F p.2 p'.2 : ℂ) * Complex.exp (Complex.I * (dot2 q (pos a R) : ℝ))

/-- Transformation of the dynamical matrix under symmetry operations. -/
theorem transform {nat : Nat} (c : Crystal nat) (a : R2 × R2) (B : Matrix (Fin 3) (Fin 3) ℝ) (hB : Planar B)
    (h : c.Symmetric a B) (q : R2) (p p' : Fin nat × Fin 3) :
    c.cart a (part B q) p p' = apply (c.cart a q) (kron nat B) p p' *
      star (Complex.exp (Complex.I * (dot2 (fun i => q i - part B q i) (c.r p.1) : ℝ))) *
      Complex.exp (Complex.I * (dot2 (fun i => q i - part B q i) (c.r p'.1) : ℝ)) := by
  classical
  obtain ⟨f, hf⟩ := h p.1 p'.1
  set Φ := c.force p.1 p'.1 with hΦ
  set T : Finset (ℤ × ℤ) := Φ.support ∪ Φ.support.map f.symm.toEmbedding with hT
  have hsum : ∀ (g : ℤ × ℤ → ℂ) (x y : Fin 3), (Φ.sum fun R F => (F x y : ℂ) * g R) = ∑ R ∈ T, (Φ R x y : ℂ) * g R := by
    intro g x y
    refine Finset.sum_subset Finset.subset_union_left fun R _ hR => ?_
    rw [Finsupp.notMem_support_iff.1 hR]
    simp
  have hsum' : ∀ (g : ℤ × ℤ → ℂ) (x y : Fin 3), (Φ.sum fun R F => (F x y : ℂ) * g R) = ∑ R ∈ T, (Φ (f R) x y : ℂ) * g (f R) := by
    intro g x y
    have e : ∑ R ∈ T, (Φ (f R) x y : ℂ) * g (f R) = ∑ R ∈ T.map f.toEmbedding, (Φ R x y : ℂ) * g R := by
      rw [Finset.sum_map]
      rfl
    rw [e]
    refine Finset.sum_subset (fun R hR => ?_) fun R _ hR => ?_
    · rw [Finset.mem_map]
      refine ⟨f.symm R, ?_, by simp⟩
      rw [hT, Finset.mem_union]
      right
      rw [Finset.mem_map]
      exact ⟨R, hR, rfl⟩
    · rw [Finsupp.notMem_support_iff.1 hR]
      simp
  have hstar : ∀ x : ℝ, star (Complex.exp (Complex.I * (x : ℂ))) = Complex.exp (Complex.I * ((-x : ℝ) : ℂ)) := by
    intro x
    rw [Complex.star_def, ← Complex.exp_conj, map_mul, Complex.conj_I, Complex.conj_ofReal]
    congr 1
    push_cast
    ring
  have hphase : ∀ R, dot2 (part B q) (pos a (f R)) = dot2 q (pos a R) + (-(dot2 (fun i => q i - part B q i) (c.r p.1)) +
      dot2 (fun i => q i - part B q i) (c.r p'.1)) := by
    intro R
    have h1 : part B (fun j => pos a R j + c.r p'.1 j - c.r p.1 j) = fun i => pos a (f R) i + c.r p'.1 i - c.r p.1 i :=
      funext fun i => (hf R).1 i
    have h2 := hB.orth q fun j => pos a R j + c.r p'.1 j - c.r p.1 j
    rw [h1] at h2
    simp only [dot2] at h2 ⊢
    linear_combination h2
  have hexp : ∀ R, Complex.exp (Complex.I * (dot2 (part B q) (pos a (f R)) : ℝ)) =
      Complex.exp (Complex.I * (dot2 q (pos a R) : ℝ)) *
      (star (Complex.exp (Complex.I * (dot2 (fun i => q i - part B q i) (c.r p.1) : ℝ))) *
      Complex.exp (Complex.I * (dot2 (fun i => q i - part B q i) (c.r p'.1) : ℝ))) := by
    intro R
    rw [hphase, hstar, ← Complex.exp_add, ← Complex.exp_add]
    congr 1
    push_cast
    ring
  rw [mul_assoc]
  generalize star (Complex.exp (Complex.I * (dot2 (fun i => q i - part B q i) (c.r p.1) : ℝ))) *
      Complex.exp (Complex.I * (dot2 (fun i => q i - part B q i) (c.r p'.1) : ℝ)) = w at hexp ⊢
  rw [apply_kron]
  unfold Crystal.cart
  simp only [← hΦ]
  rw [hsum' (fun R => Complex.exp (Complex.I * (dot2 (part B q) (pos a R) : ℝ)))]
  have e : ∀ x y, (Φ.sum fun R F => (F x y : ℂ) * Complex.exp (Complex.I * (dot2 q (pos a R) : ℝ))) =
      ∑ R ∈ T, (Φ R x y : ℂ) * Complex.exp (Complex.I * (dot2 q (pos a R) : ℝ)) := fun x y => hsum _ x y
  simp only [e, hexp]
  have eB : ∀ R, (Φ (f R) p.2 p'.2 : ℂ) = ∑ x, ∑ y, (B p.2 x : ℂ) * (Φ R x y : ℂ) * B p'.2 y := by
    intro R
    rw [(hf R).2, Matrix.mul_apply]
    simp only [Matrix.mul_apply, Matrix.transpose_apply]
    push_cast
    simp only [Finset.sum_mul]
    rw [Finset.sum_comm]
  simp only [eB]
  rw [Finset.sum_mul]
  have : ∀ x y, (B p.2 x : ℂ) * (∑ R ∈ T, (Φ R x y : ℂ) * Complex.exp (Complex.I * (dot2 q (pos a R) : ℝ))) * B p'.2 y * w =
      ∑ R ∈ T, (B p.2 x : ℂ) * (Φ R x y : ℂ) * B p'.2 y * (Complex.exp (Complex.I * (dot2 q (pos a R) : ℝ)) * w) := by
    intro x y
    rw [Finset.mul_sum, Finset.sum_mul, Finset.sum_mul]
    exact Finset.sum_congr rfl fun R _ => by ring
  simp only [Finset.sum_mul (s := Finset.univ), this]
  rw [Finset.sum_comm]
  refine Finset.sum_congr rfl fun x _ => ?_
  rw [Finset.sum_comm]

/-! ### Assignments -/

/-- Numbers of rotations by 60 degrees. -/
def turns : Angle → List Nat
  | .a90 => [0]
  | _ => [0, 2, 4]

theorem angles_eq (angle : Angle) : angles angle = (turns angle).map fun n : Nat => n * (Real.pi / 3) := by
  cases angle <;> simp [angles, turns] <;> constructor <;> ring

theorem block_add (x y : ℝ) (q : R2) : part (block (x + y)) q = part (block x) (part (block y) q) := by
  rw [← part_mul _ _ (planar_block x).right]
  congr 1
  rw [block, block, block, Real.cos_add, Real.sin_add]
  ext i j
  fin_cases i <;> fin_cases j <;> simp [Matrix.mul_apply, Fin.sum_univ_three] <;> ring

/-- Components of a wave vector in units of `s`. -/
def Comp (angle : Angle) (s : ℝ) (q : R2) (Q : P) : Prop :=
  dot2 q (lattice angle).1 = s * Q.1 ∧ dot2 q (lattice angle).2 = s * Q.2

theorem comp_rot (angle : Angle) (ha : angle ≠ .a90) (s : ℝ) (q : R2) (Q : P) (h : Comp angle s q Q) :
    Comp angle s (part (block (Real.pi / 3)) q) (rot angle Q) := by
  have h3 : √3 * √3 = 3 := Real.mul_self_sqrt (by norm_num)
  obtain ⟨Q1, Q2⟩ := Q
  obtain ⟨h1, h2⟩ := h
  cases angle
  · simp only [Comp, dot2, lattice, part, block, rot, Fin.sum_univ_two, Real.cos_pi_div_three, Real.sin_pi_div_three] at h1 h2 ⊢
    simp at h1 h2 ⊢
    constructor
    · linear_combination -h2
    · linear_combination h1 + h2 + q 0 / 4 * h3
  · exact absurd rfl ha
  · simp only [Comp, dot2, lattice, part, block, rot, Fin.sum_univ_two, Real.cos_pi_div_three, Real.sin_pi_div_three] at h1 h2 ⊢
    simp at h1 h2 ⊢
    constructor
    · linear_combination h1 - h2
    · linear_combination h1 + q 0 / 4 * h3

theorem comp_turn (angle : Angle) (n : Nat) (hn : n ∈ turns angle) (s : ℝ) (q : R2) (Q : P) (h : Comp angle s q Q) :
    Comp angle s (part (block (n * (Real.pi / 3))) q) ((rot angle)^[n] Q) := by
  have h0 : part (block 0) q = q := by
    rw [block_zero]
    funext i
    fin_cases i <;> simp [part, Fin.sum_univ_two, Matrix.one_apply]
  by_cases ha : angle = .a90
  · subst ha
    simp only [turns, List.mem_cons, List.not_mem_nil, or_false] at hn
    subst hn
    rw [Nat.cast_zero, zero_mul, h0]
    exact h
  · clear hn
    induction n with
    | zero =>
      rw [Nat.cast_zero, zero_mul, h0]
      exact h
    | succ n ih =>
      rw [Function.iterate_succ_apply', Nat.cast_succ, show ((n : ℝ) + 1) * (Real.pi / 3) = Real.pi / 3 + n * (Real.pi / 3) by ring,
        block_add]
      exact comp_rot angle ha s _ _ ih

theorem comp_refl (angle : Angle) (s : ℝ) (q : R2) (Q : P) (h : Comp angle s q Q) :
    Comp angle s (part reflBlock q) (refl angle Q) := by
  obtain ⟨Q1, Q2⟩ := Q
  obtain ⟨h1, h2⟩ := h
  cases angle
  all_goals
    simp only [Comp, dot2, lattice, part, reflBlock, Verif.Mesh.refl, Fin.sum_univ_two] at *
    simp at *
    constructor
    · linear_combination h1
  · linear_combination h1 + h2
  · linear_combination h2
  · linear_combination h2 - h1

/-- Image of a mesh point. -/
def image (angle : Angle) (n : Nat) (reflect : Bool) (Q : P) : P :=
  if reflect then refl angle ((rot angle)^[n] Q) else (rot angle)^[n] Q

theorem comp_op (angle : Angle) (n : Nat) (hn : n ∈ turns angle) (reflect : Bool) (s : ℝ) (q : R2) (Q : P) (h : Comp angle s q Q) :
    Comp angle s (part (op (n * (Real.pi / 3)) reflect) q) (image angle n reflect Q) := by
  cases reflect
  · exact comp_turn angle n hn s q Q h
  · simp only [op, image, if_true]
    rw [part_mul _ _ planar_refl.right]
    exact comp_refl angle s _ _ (comp_turn angle n hn s q Q h)

theorem cart_D {nat : Nat} (c : Crystal nat) (angle : Angle) (nq : Nat) (q : R2) (Q : P)
    (h : Comp angle (2 * Real.pi / nq) q Q) : c.cart (lattice angle) q = c.D nq Q.1 Q.2 := by
  funext p p'
  refine Finsupp.sum_congr fun R _ => ?_
  congr 3
  obtain ⟨h1, h2⟩ := h
  rw [Complex.ofReal_inj]
  simp only [dot2, pos] at *
  rw [show 2 * Real.pi * (Q.1 * R.1 + Q.2 * R.2) / (nq : ℝ) = 2 * Real.pi / nq * Q.1 * R.1 + 2 * Real.pi / nq * Q.2 * R.2 by ring]
  linear_combination (R.1 : ℝ) * h1 + (R.2 : ℝ) * h2

theorem D_conj {nat : Nat} (c : Crystal nat) (nq : Nat) (Q1 Q2 : ℤ) :
    (fun p p' => star (c.D nq Q1 Q2 p p')) = c.D nq (-Q1) (-Q2) := by
  funext p p'
  unfold Crystal.D Finsupp.sum
  rw [star_sum]
  refine Finset.sum_congr rfl fun R _ => ?_
  rw [star_mul', Complex.star_def, Complex.conj_ofReal, ← Complex.exp_conj, map_mul, Complex.conj_I, Complex.conj_ofReal]
  congr 2
  push_cast
  ring

theorem pyRound_int (n : ℤ) : pyRound n = n := by
  unfold pyRound
  rw [Int.fract_intCast, if_neg (by norm_num), Int.floor_eq_iff]
  constructor <;> linarith

/-- The assignments are those of the correct matrices. -/
theorem assign_eq {nat : Nat} (c : Crystal nat) (angle : Angle) (nq : Nat) (h0 : 0 < nq)
    (hm : c.Symmetric (lattice angle) mirror) (ht : angle ≠ .a90 → c.Symmetric (lattice angle) turn) (Q : P) (n : Nat)
    (hn : n ∈ turns angle) (reflect : Bool) :
    assign angle nq c.r (2 * Real.pi / nq * Q.1, 2 * Real.pi / nq * Q.2) (c.D nq Q.1 Q.2) (n * (Real.pi / 3)) reflect =
      [((image angle n reflect Q).1, (image angle n reflect Q).2, c.D nq (image angle n reflect Q).1 (image angle n reflect Q).2),
       (-(image angle n reflect Q).1, -(image angle n reflect Q).2,
        c.D nq (-(image angle n reflect Q).1) (-(image angle n reflect Q).2))] := by
  have hq0 := q0_dot angle (2 * Real.pi / nq * Q.1, 2 * Real.pi / nq * Q.2)
  unfold assign
  simp only [vectors_eq]
  generalize hb : (fun i => 2 * Real.pi / nq * (Q.1 : ℝ) * (reciprocals2 (lattice angle).1 (lattice angle).2).1 i +
    2 * Real.pi / nq * (Q.2 : ℝ) * (reciprocals2 (lattice angle).1 (lattice angle).2).2 i) = q0 at hq0 ⊢
  have hc : Comp angle (2 * Real.pi / nq) q0 Q := hq0
  have hop := comp_op angle n hn reflect _ _ _ hc
  have hphi : (n : ℝ) * (Real.pi / 3) ∈ angles angle := by
    rw [angles_eq]
    exact List.mem_map_of_mem hn
  have hsym := symmetric_op c angle hm ht _ hphi reflect
  have hq' : (if reflect = true then part reflBlock (part (block (n * (Real.pi / 3))) q0) else part (block (n * (Real.pi / 3))) q0) =
      part (op (n * (Real.pi / 3)) reflect) q0 := by
    cases reflect
    · rfl
    · simp only [op, if_true]
      rw [part_mul _ _ planar_refl.right]
  have hD' : (if reflect = true then apply (apply (c.D nq Q.1 Q.2) (rotation (n * (Real.pi / 3)) nat)) (reflection nat) else
      apply (c.D nq Q.1 Q.2) (rotation (n * (Real.pi / 3)) nat)) =
      apply (c.cart (lattice angle) q0) (kron nat (op (n * (Real.pi / 3)) reflect)) := by
    rw [← cart_D c angle nq q0 Q hc]
    cases reflect
    · rfl
    · simp only [op, if_true]
      rw [← apply_mul, reflection_eq]
      rfl
  have hround : ∀ z : ℤ, pyRound (2 * Real.pi / nq * z * (nq / (2 * Real.pi))) = z := by
    intro z
    have : 2 * Real.pi / nq * z * (nq / (2 * Real.pi)) = (z : ℝ) := by
      have := Real.pi_pos.ne'
      have hn : (nq : ℝ) ≠ 0 := by exact_mod_cast h0.ne'
      field_simp
    rw [this, pyRound_int]
  have htr : (fun p p' => apply (c.cart (lattice angle) q0) (kron nat (op (n * (Real.pi / 3)) reflect)) p p' *
      star (Complex.exp (Complex.I * (dot2 (fun i => q0 i - part (op (n * (Real.pi / 3)) reflect) q0 i) (c.r p.1) : ℝ))) *
      Complex.exp (Complex.I * (dot2 (fun i => q0 i - part (op (n * (Real.pi / 3)) reflect) q0 i) (c.r p'.1) : ℝ))) =
      c.D nq (image angle n reflect Q).1 (image angle n reflect Q).2 := by
    rw [← cart_D c angle nq _ _ hop]
    funext p p'
    exact (transform c (lattice angle) _ (planar_op _ _) hsym q0 p p').symm
  have hcon : (fun p p' => star (apply (c.cart (lattice angle) q0) (kron nat (op (n * (Real.pi / 3)) reflect)) p p' *
      star (Complex.exp (Complex.I * (dot2 (fun i => q0 i - part (op (n * (Real.pi / 3)) reflect) q0 i) (c.r p.1) : ℝ))) *
      Complex.exp (Complex.I * (dot2 (fun i => q0 i - part (op (n * (Real.pi / 3)) reflect) q0 i) (c.r p'.1) : ℝ)))) =
      c.D nq (-(image angle n reflect Q).1) (-(image angle n reflect Q).2) := by
    rw [← D_conj, ← htr]
  have hbi : ∀ i, 2 * Real.pi / nq * (Q.1 : ℝ) * (reciprocals2 (lattice angle).1 (lattice angle).2).1 i +
    2 * Real.pi / nq * (Q.2 : ℝ) * (reciprocals2 (lattice angle).1 (lattice angle).2).2 i = q0 i := fun i => congrFun hb i
  simp only [hq', hD', hbi]
  rw [htr, hcon, hop.1, hop.2, hround, hround]

/-! ### Table -/

theorem D_mod {nat : Nat} (c : Crystal nat) (nq : Nat) (h0 : 0 < nq) (Q1 Q2 k l : ℤ) :
    c.D nq (Q1 + k * nq) (Q2 + l * nq) = c.D nq Q1 Q2 := by
  funext p p'
  refine Finsupp.sum_congr fun R _ => ?_
  congr 1
  rw [Complex.exp_eq_exp_iff_exists_int]
  refine ⟨k * R.1 + l * R.2, ?_⟩
  have hn : (nq : ℂ) ≠ 0 := by exact_mod_cast h0.ne'
  push_cast
  field_simp
  ring

theorem pyIndex_spec (n : Nat) (z : ℤ) (i : Nat) (h : Verif.Text.pyIndex n z = some i) : i < n ∧ ∃ k : ℤ, z = i + k * n := by
  unfold Verif.Text.pyIndex at h
  split_ifs at h with h1 h2
  · have := Option.some.inj h
    exact ⟨by omega, 0, by omega⟩
  · have := Option.some.inj h
    exact ⟨by omega, -1, by omega⟩

theorem pyIndex_small (n : Nat) (z : ℤ) (h : -(n : ℤ) < z ∧ z < n) : ∃ i, Verif.Text.pyIndex n z = some i := by
  unfold Verif.Text.pyIndex
  split_ifs with h1 h2
  · exact ⟨_, rfl⟩
  · exact ⟨_, rfl⟩
  · omega

/-- Entries after several assignments. -/
theorem fold_put {α : Type} (nq : Nat) (good : Nat → Nat → α) (l : List (ℤ × ℤ × α))
    (hgood : ∀ w ∈ l, ∀ i j, Verif.Text.pyIndex nq w.1 = some i → Verif.Text.pyIndex nq w.2.1 = some j → w.2.2 = good i j)
    (t t' : Nat → Nat → Option α) (h : l.foldlM (put nq) t = some t') (i j : Nat) :
    t' i j = if ∃ w ∈ l, Verif.Text.pyIndex nq w.1 = some i ∧ Verif.Text.pyIndex nq w.2.1 = some j then some (good i j) else t i j := by
  classical
  induction l generalizing t with
  | nil =>
    simp only [List.foldlM_nil] at h
    have := Option.some.inj h
    subst this
    simp
  | cons w l ih =>
    rw [List.foldlM_cons] at h
    cases h1 : Verif.Text.pyIndex nq w.1 with
    | none => simp [put, h1] at h
    | some i0 =>
      cases h2 : Verif.Text.pyIndex nq w.2.1 with
      | none => simp [put, h1, h2] at h
      | some j0 =>
        simp only [put, h1, h2, Option.bind_eq_bind, Option.bind_some] at h
        rw [ih (fun w hw => hgood w (by simp [hw])) _ h]
        by_cases hl : ∃ w ∈ l, Verif.Text.pyIndex nq w.1 = some i ∧ Verif.Text.pyIndex nq w.2.1 = some j
        · obtain ⟨w', hw', e⟩ := hl
          rw [if_pos ⟨w', hw', e⟩, if_pos ⟨w', by simp [hw'], e⟩]
        · rw [if_neg hl]
          by_cases hij : i = i0 ∧ j = j0
          · obtain ⟨rfl, rfl⟩ := hij
            rw [if_pos ⟨rfl, rfl⟩, if_pos ⟨w, by simp, h1, h2⟩, hgood w (by simp) _ _ h1 h2]
          · rw [if_neg hij, if_neg]
            rintro ⟨w', hw', e1, e2⟩
            rw [List.mem_cons] at hw'
            rcases hw' with rfl | hw'
            · rw [h1] at e1
              rw [h2] at e2
              exact hij ⟨(Option.some.inj e1).symm, (Option.some.inj e2).symm⟩
            · exact hl ⟨w', hw', e1, e2⟩

theorem fold_some {α : Type} (nq : Nat) (l : List (ℤ × ℤ × α))
    (h : ∀ w ∈ l, (-(nq : ℤ) < w.1 ∧ w.1 < nq) ∧ (-(nq : ℤ) < w.2.1 ∧ w.2.1 < nq)) (t : Nat → Nat → Option α) :
    ∃ t', l.foldlM (put nq) t = some t' := by
  induction l generalizing t with
  | nil => exact ⟨t, rfl⟩
  | cons w l ih =>
    obtain ⟨i, hi⟩ := pyIndex_small nq _ (h w (by simp)).1
    obtain ⟨j, hj⟩ := pyIndex_small nq _ (h w (by simp)).2
    rw [List.foldlM_cons]
    simp only [put, hi, hj, Option.bind_eq_bind, Option.bind_some]
    exact ih (fun w hw => h w (by simp [hw])) _

/-- Input of `q2r`: wave vectors and dynamical matrices. -/
noncomputable def Crystal.input {nat : Nat} (c : Crystal nat) (nq : Nat) (pts : List P) : List ((ℝ × ℝ) × DM nat) :=
  pts.map fun Q => ((2 * Real.pi / nq * Q.1, 2 * Real.pi / nq * Q.2), c.D nq Q.1 Q.2)

theorem mem_assigns {nat : Nat} (c : Crystal nat) (angle : Angle) (nq : Nat) (h0 : 0 < nq)
    (hm : c.Symmetric (lattice angle) mirror) (ht : angle ≠ .a90 → c.Symmetric (lattice angle) turn) (pts : List P)
    (w : ℤ × ℤ × DM nat) : w ∈ assigns angle nq c.r (c.input nq pts) ↔ ∃ Q ∈ pts, ∃ n ∈ turns angle, ∃ reflect,
      w = ((image angle n reflect Q).1, (image angle n reflect Q).2, c.D nq (image angle n reflect Q).1 (image angle n reflect Q).2) ∨
      w = (-(image angle n reflect Q).1, -(image angle n reflect Q).2,
        c.D nq (-(image angle n reflect Q).1) (-(image angle n reflect Q).2)) := by
  unfold assigns Crystal.input
  rw [angles_eq]
  simp only [List.mem_flatMap, List.mem_map]
  constructor
  · rintro ⟨x, ⟨Q, hQ, rfl⟩, phi, ⟨n, hn, rfl⟩, reflect, _, hw⟩
    rw [assign_eq c angle nq h0 hm ht Q n hn reflect] at hw
    simp only [List.mem_cons, List.not_mem_nil, or_false] at hw
    exact ⟨Q, hQ, n, hn, reflect, hw⟩
  · rintro ⟨Q, hQ, n, hn, reflect, hw⟩
    refine ⟨_, ⟨Q, hQ, rfl⟩, _, ⟨n, hn, rfl⟩, reflect, by cases reflect <;> simp, ?_⟩
    rw [assign_eq c angle nq h0 hm ht Q n hn reflect]
    simpa using hw

theorem entries {nat : Nat} (c : Crystal nat) (angle : Angle) (nq : Nat) (h0 : 0 < nq)
    (hm : c.Symmetric (lattice angle) mirror) (ht : angle ≠ .a90 → c.Symmetric (lattice angle) turn) (pts : List P)
    (t : Nat → Nat → Option (DM nat)) (h : full angle nq c.r (c.input nq pts) = some t) (i j : Nat) :
    t i j = if ∃ w ∈ assigns angle nq c.r (c.input nq pts), Verif.Text.pyIndex nq w.1 = some i ∧
      Verif.Text.pyIndex nq w.2.1 = some j then some (c.D nq i j) else none := by
  refine fold_put nq (fun i j => c.D nq i j) _ (fun w hw i j hi hj => ?_) _ t h i j
  obtain ⟨_, k, hk⟩ := pyIndex_spec nq _ _ hi
  obtain ⟨_, l, hl⟩ := pyIndex_spec nq _ _ hj
  obtain ⟨Q, _, n, _, reflect, rfl | rfl⟩ := (mem_assigns c angle nq h0 hm ht pts w).1 hw
  · simp only at hk hl ⊢
    rw [hk, hl]
    exact D_mod c nq h0 i j k l
  · simp only at hk hl ⊢
    rw [hk, hl]
    exact D_mod c nq h0 i j k l

/-- The images of the given points are on the mesh without being mapped back, up to negative indices. -/
def InRange (angle : Angle) (nq : Nat) (pts : List P) : Prop :=
  ∀ Q ∈ pts, ∀ n ∈ turns angle, ∀ reflect, (-(nq : ℤ) < (image angle n reflect Q).1 ∧ (image angle n reflect Q).1 < nq) ∧
    (-(nq : ℤ) < (image angle n reflect Q).2 ∧ (image angle n reflect Q).2 < nq)

theorem full_some {nat : Nat} (c : Crystal nat) (angle : Angle) (nq : Nat) (h0 : 0 < nq)
    (hm : c.Symmetric (lattice angle) mirror) (ht : angle ≠ .a90 → c.Symmetric (lattice angle) turn) (pts : List P)
    (hr : InRange angle nq pts) : ∃ t, full angle nq c.r (c.input nq pts) = some t := by
  refine fold_some nq _ (fun w hw => ?_) _
  obtain ⟨Q, hQ, n, hn, reflect, rfl | rfl⟩ := (mem_assigns c angle nq h0 hm ht pts w).1 hw
  · exact hr Q hQ n hn reflect
  · have := hr Q hQ n hn reflect
    simp only
    omega

theorem index_eq (nq : Nat) (z : ℤ) (h : -(nq : ℤ) < z ∧ z < nq) (i : Nat) (hi : i < nq) (hd : (nq : ℤ) ∣ i - z) :
    Verif.Text.pyIndex nq z = some i := by
  obtain ⟨i', hi'⟩ := pyIndex_small nq z h
  obtain ⟨hlt, k, hk⟩ := pyIndex_spec nq z i' hi'
  obtain ⟨l, hl⟩ := hd
  have e : (i : ℤ) - i' = nq * (l + k) := by rw [mul_add, ← hl, hk]; ring
  have : (i : ℤ) - i' = 0 := Int.eq_zero_of_abs_lt_dvd (m := nq) ⟨_, e⟩ (by rw [abs_lt]; omega)
  rw [hi']
  congr 1
  omega

/-- Points of the mesh up to sign and multiples of the number of points. -/
def Covers (angle : Angle) (nq : Nat) (pts : List P) : Prop :=
  ∀ i j : Nat, i < nq → j < nq → ∃ Q ∈ pts, ∃ n ∈ turns angle, ∃ reflect, ∃ s : ℤ, (s = 1 ∨ s = -1) ∧
    (nq : ℤ) ∣ i - s * (image angle n reflect Q).1 ∧ (nq : ℤ) ∣ j - s * (image angle n reflect Q).2

theorem cover {nat : Nat} (c : Crystal nat) (angle : Angle) (nq : Nat) (h0 : 0 < nq)
    (hm : c.Symmetric (lattice angle) mirror) (ht : angle ≠ .a90 → c.Symmetric (lattice angle) turn) (pts : List P)
    (hr : InRange angle nq pts) (hc : Covers angle nq pts) :
    ∃ t, full angle nq c.r (c.input nq pts) = some t ∧ ∀ i j : Nat, i < nq → j < nq → t i j = some (c.D nq i j) := by
  obtain ⟨t, h⟩ := full_some c angle nq h0 hm ht pts hr
  refine ⟨t, h, fun i j hi hj => ?_⟩
  rw [entries c angle nq h0 hm ht pts t h, if_pos]
  obtain ⟨Q, hQ, n, hn, reflect, s, hs, d1, d2⟩ := hc i j hi hj
  have hR := hr Q hQ n hn reflect
  rcases hs with rfl | rfl
  · refine ⟨_, (mem_assigns c angle nq h0 hm ht pts _).2 ⟨Q, hQ, n, hn, reflect, Or.inl rfl⟩, ?_, ?_⟩
    · exact index_eq nq _ hR.1 i hi (by simpa using d1)
    · exact index_eq nq _ hR.2 j hj (by simpa using d2)
  · refine ⟨_, (mem_assigns c angle nq h0 hm ht pts _).2 ⟨Q, hQ, n, hn, reflect, Or.inr rfl⟩, ?_, ?_⟩
    · exact index_eq nq _ (by simp only; omega) i hi (by simpa using d1)
    · exact index_eq nq _ (by simp only; omega) j hj (by simpa using d2)

/-! ### Irreducible points -/

theorem irr_sum (nq : Nat) (p : P) (h : p ∈ irreducibles nq .a60) : p.1 + p.2 < nq := by
  obtain ⟨⟨⟨h1, h2⟩, h3, h4⟩, hb⟩ := (C20_irreducibles nq .a60 p).1 h
  by_contra hge
  push Not at hge
  refine hb (p.1 + p.2 - nq, nq - p.2) ⟨⟨by simp only; omega, by simp only; omega⟩, by simp only; omega, by simp only; omega⟩
    ⟨⟨1, 1, 0, -1⟩, fun k => ?_, ⟨0, ?_⟩, ⟨1, ?_⟩⟩ (Or.inl (by simp only; omega))
  · simp only [Lin.act, normSq]
    ring
  · simp only [Lin.act]
    ring
  · simp only [Lin.act]
    ring

theorem irr_range (nq : Nat) (angle : Angle) (ha : angle ≠ .a90) (pts : List P) (hp : ∀ p ∈ pts, p ∈ irreducibles nq angle) :
    InRange angle nq pts := by
  intro Q hQ n hn reflect
  obtain ⟨⟨⟨h1, h2⟩, h3, h4⟩, -⟩ := (C20_irreducibles nq angle Q).1 (hp Q hQ)
  obtain ⟨k1, k2⟩ := Q
  simp only at h1 h2 h3 h4
  cases angle
  · have hs := irr_sum nq _ (hp _ hQ)
    simp only at hs
    simp only [turns, List.mem_cons, List.not_mem_nil, or_false] at hn
    rcases hn with rfl | rfl | rfl <;> cases reflect <;>
      simp only [image, rot, Verif.Mesh.refl, Function.iterate_succ_apply, Function.iterate_zero_apply, if_true, Bool.false_eq_true, if_false] <;> omega
  · exact absurd rfl ha
  · simp only [turns, List.mem_cons, List.not_mem_nil, or_false] at hn
    rcases hn with rfl | rfl | rfl <;> cases reflect <;>
      simp only [image, rot, Verif.Mesh.refl, Function.iterate_succ_apply, Function.iterate_zero_apply, if_true, Bool.false_eq_true, if_false] <;> omega

theorem rot_even (angle : Angle) (ha : angle ≠ .a90) (m : Nat) (k : P) : ∃ n ∈ turns angle, ∃ s : ℤ, (s = 1 ∨ s = -1) ∧
    (rot angle)^[m] k = (s * ((rot angle)^[n] k).1, s * ((rot angle)^[n] k).2) := by
  have h6 : nrot angle = 6 := by cases angle <;> first | rfl | exact absurd rfl ha
  have ht : turns angle = [0, 2, 4] := by cases angle <;> first | rfl | exact absurd rfl ha
  have h3 : ∀ k, (rot angle)^[3] k = (-k.1, -k.2) := by
    rintro ⟨x, y⟩
    cases angle
    · simp [rot, Function.iterate_succ_apply]
    · exact absurd rfl ha
    · simp [rot, Function.iterate_succ_apply]
      ring
  rw [← iterate_mod angle m k, h6, ht]
  have hlt : m % 6 < 6 := Nat.mod_lt _ (by norm_num)
  have key : m % 6 = 0 ∨ m % 6 = 2 ∨ m % 6 = 4 ∨ m % 6 = 3 + 0 ∨ m % 6 = 3 + 2 ∨ m % 6 = 1 := by omega
  rcases key with e | e | e | e | e | e
  · exact ⟨0, by simp, 1, Or.inl rfl, by rw [e]; simp⟩
  · exact ⟨2, by simp, 1, Or.inl rfl, by rw [e]; simp⟩
  · exact ⟨4, by simp, 1, Or.inl rfl, by rw [e]; simp⟩
  · exact ⟨0, by simp, -1, Or.inr rfl, by rw [e, Function.iterate_add_apply, h3]; simp⟩
  · exact ⟨2, by simp, -1, Or.inr rfl, by rw [e, Function.iterate_add_apply, h3]; simp⟩
  · refine ⟨4, by simp, -1, Or.inr rfl, ?_⟩
    rw [e, show (4 : Nat) = 3 + 1 from rfl, Function.iterate_add_apply, h3]
    simp

theorem refl_scale (angle : Angle) (s : ℤ) (k : P) : Verif.Mesh.refl angle (s * k.1, s * k.2) =
    (s * (Verif.Mesh.refl angle k).1, s * (Verif.Mesh.refl angle k).2) := by
  obtain ⟨x, y⟩ := k
  cases angle <;> refine Prod.ext ?_ ?_ <;> simp only [Verif.Mesh.refl] <;> ring

theorem irr_covers (nq : Nat) (angle : Angle) (ha : angle ≠ .a90) (pts : List P) (hp : ∀ p ∈ irreducibles nq angle, p ∈ pts) :
    Covers angle nq pts := by
  intro i j hi hj
  obtain ⟨p, ⟨hirr, himg⟩, -⟩ := C20_one_per_orbit nq angle ((i : ℤ), (j : ℤ)) ⟨⟨by simp, by simpa using hi⟩, by simp, by simpa using hj⟩
  have hred : ∀ x : P, ((i : ℤ), (j : ℤ)) = red nq x → (nq : ℤ) ∣ i - x.1 ∧ (nq : ℤ) ∣ j - x.2 := by
    intro x hx
    rw [red, Prod.mk.injEq] at hx
    exact ⟨by rw [hx.1]; exact Int.ModEq.dvd (Int.mod_modEq _ _).symm, by rw [hx.2]; exact Int.ModEq.dvd (Int.mod_modEq _ _).symm⟩
  obtain ⟨m, h | h⟩ := (mem_images _ _ _ _).1 himg
  · obtain ⟨n, hn, s, hs, e⟩ := rot_even angle ha m p
    rw [e] at h
    exact ⟨p, hp p hirr, n, hn, false, s, hs, (hred _ h).1, (hred _ h).2⟩
  · rw [swap_eq_refl angle, ← Function.iterate_add_apply] at h
    obtain ⟨n, hn, s, hs, e⟩ := rot_even angle ha (swapShift angle + m) p
    rw [e, refl_scale] at h
    exact ⟨p, hp p hirr, n, hn, true, s, hs, (hred _ h).1, (hred _ h).2⟩

/-! ### Example -/

/-- Bonds of the honeycomb lattice from an atom to itself (`s = 0`) and to its three neighbors (`s = 1` and `s = -1`). -/
def bond (s : ℤ) (R : ℤ × ℤ) : ℤ := R.1 ^ 2 + R.2 ^ 2 - R.1 * R.2 + s * R.2

theorem bond_box (s : ℤ) (hs : s = 0 ∨ s = 1 ∨ s = -1) (R : ℤ × ℤ) (h : bond s R = 0) :
    R ∈ Finset.Icc (-2 : ℤ) 2 ×ˢ Finset.Icc (-2 : ℤ) 2 := by
  obtain ⟨x, y⟩ := R
  simp only [bond] at h
  simp only [Finset.mem_product, Finset.mem_Icc]
  rcases hs with rfl | rfl | rfl
  · have hy : -2 ≤ y ∧ y ≤ 2 := ⟨by nlinarith [sq_nonneg (2 * x - y)], by nlinarith [sq_nonneg (2 * x - y)]⟩
    exact ⟨⟨by nlinarith [sq_nonneg (2 * y - x)], by nlinarith [sq_nonneg (2 * y - x)]⟩, hy⟩
  · have hy : -2 ≤ y ∧ y ≤ 2 := ⟨by nlinarith [sq_nonneg (2 * x - y)], by nlinarith [sq_nonneg (2 * x - y)]⟩
    exact ⟨⟨by nlinarith [sq_nonneg (x - y)], by nlinarith [sq_nonneg (x - y)]⟩, hy⟩
  · have hy : -2 ≤ y ∧ y ≤ 2 := ⟨by nlinarith [sq_nonneg (2 * x - y)], by nlinarith [sq_nonneg (2 * x - y)]⟩
    exact ⟨⟨by nlinarith [sq_nonneg (x - y)], by nlinarith [sq_nonneg (x - y)]⟩, hy⟩

theorem shift_cases (n m : Fin 2) : (m : ℤ) - n = 0 ∨ (m : ℤ) - n = 1 ∨ (m : ℤ) - n = -1 := by
  fin_cases n <;> fin_cases m <;> simp

/-- Honeycomb lattice with springs between nearest neighbors, which are stiffer in the plane. -/
noncomputable def honeycomb : Crystal 2 where
  r n := ![0, n / √3]
  force n m := Finsupp.onFinset (Finset.Icc (-2 : ℤ) 2 ×ˢ Finset.Icc (-2 : ℤ) 2)
    (fun R => if bond (m - n) R = 0 then (if n = m then 3 else -1 : ℝ) • !![2, 0, 0; 0, 2, 0; 0, 0, 1] else 0)
    (fun R h => bond_box _ (shift_cases n m) R (by by_contra hb; exact h (if_neg hb)))

theorem honeycomb_mirror : honeycomb.Symmetric (lattice .a60) mirror := by
  intro n m
  refine ⟨⟨fun R => (R.2 - R.1, R.2), fun R => (R.2 - R.1, R.2), fun R => by simp, fun R => by simp⟩, fun R => ⟨fun i => ?_, ?_⟩⟩
  · fin_cases i
    · simp [Fin.sum_univ_two, mirror, pos, lattice, honeycomb]; ring
    · simp [Fin.sum_univ_two, mirror, pos, lattice, honeycomb]
  · have e : bond (m - n) (R.2 - R.1, R.2) = bond (m - n) R := by simp only [bond]; ring
    simp only [honeycomb, Finsupp.onFinset_apply, Equiv.coe_fn_mk, e]
    split
    · rw [Matrix.mul_smul, Matrix.smul_mul]
      congr 1
      ext i j
      fin_cases i <;> fin_cases j <;> simp [mirror, Matrix.mul_apply, Fin.sum_univ_three]
    · simp

theorem honeycomb_turn : honeycomb.Symmetric (lattice .a60) turn := by
  intro n m
  have h3 : √3 * √3 = 3 := Real.mul_self_sqrt (by norm_num)
  have h0 : √3 ≠ 0 := by positivity
  refine ⟨⟨fun R => (-R.2 - (m - n), R.1 - R.2 - (m - n)), fun R => (R.2 - R.1, -R.1 - (m - n)), fun R => ?_, fun R => ?_⟩,
    fun R => ⟨fun i => ?_, ?_⟩⟩
  · refine Prod.ext ?_ ?_ <;> simp only <;> ring
  · refine Prod.ext ?_ ?_ <;> simp only <;> ring
  · have e : (m : ℝ) / √3 - n / √3 = (m - n) * √3 / 3 := by field_simp; nlinarith
    fin_cases i
    · simp [Fin.sum_univ_two, turn, pos, lattice, honeycomb]
      linear_combination (-√3 / 2) * e + (-(R.2 : ℝ) / 4 - (m - n) / 6) * h3
    · simp [Fin.sum_univ_two, turn, pos, lattice, honeycomb]
      linear_combination (-3 / 2) * e
  · have e : bond (m - n) (-R.2 - (m - n), R.1 - R.2 - (m - n)) = bond (m - n) R := by simp only [bond]; ring
    simp only [honeycomb, Finsupp.onFinset_apply, Equiv.coe_fn_mk, e]
    split
    · rw [Matrix.mul_smul, Matrix.smul_mul]
      congr 1
      ext i j
      fin_cases i <;> fin_cases j <;> simp [turn, Matrix.mul_apply, Fin.sum_univ_three] <;> nlinarith
    · simp

/-! ### Claims -/

/-- **C124**: For a crystal on a triangular lattice whose atoms are mapped onto images of themselves by rotations by 120 degrees and
the reflection of the first axis, which leave the force constants invariant, the dynamical matrices on the whole mesh follow from those
at irreducible points, in whatever order: No index is out of range, and all matrices are set and correct. -/
theorem C124_mesh {nat : Nat} (c : Crystal nat) (angle : Angle) (ha : angle ≠ .a90) (nq : Nat) (h0 : 0 < nq)
    (hm : c.Symmetric (lattice angle) mirror) (ht : c.Symmetric (lattice angle) turn) (pts : List P)
    (hp : ∀ p, p ∈ pts ↔ p ∈ irreducibles nq angle) :
    ∃ t, full angle nq c.r (c.input nq pts) = some t ∧ ∀ i j : Nat, i < nq → j < nq → t i j = some (c.D nq i j) :=
  cover c angle nq h0 hm (fun _ => ht) pts (irr_range nq angle ha pts fun p h => (hp p).1 h)
    (irr_covers nq angle ha pts fun p h => (hp p).2 h)

/-- The dynamical matrices of a honeycomb lattice on a mesh of 5 × 5 points. -/
example : ∃ t, full .a60 5 honeycomb.r (honeycomb.input 5 (irreducibles 5 .a60).toList) = some t ∧
    ∀ i j : Nat, i < 5 → j < 5 → t i j = some (honeycomb.D 5 i j) :=
  C124_mesh honeycomb .a60 (by decide) 5 (by norm_num) honeycomb_mirror honeycomb_turn _ fun _ => Finset.mem_toList

/-- **C124**: For any points and also for the square lattice, where the reflection is sufficient, whatever is set is correct. -/
theorem C124_correct {nat : Nat} (c : Crystal nat) (angle : Angle) (nq : Nat) (h0 : 0 < nq)
    (hm : c.Symmetric (lattice angle) mirror) (ht : angle ≠ .a90 → c.Symmetric (lattice angle) turn) (pts : List P)
    (t : Nat → Nat → Option (DM nat)) (h : full angle nq c.r (c.input nq pts) = some t) (i j : Nat) (M : DM nat)
    (hM : t i j = some M) : M = c.D nq i j := by
  rw [entries c angle nq h0 hm ht pts t h] at hM
  split at hM
  · exact (Option.some.inj hM).symm
  · exact absurd hM (by simp)

/-- **C124**: For the square lattice, all matrices are set if the points cover the mesh up to the signs of their components (the
rotation by 90 degrees is not used, as stated in the documentation). -/
theorem C124_square {nat : Nat} (c : Crystal nat) (nq : Nat) (h0 : 0 < nq) (hm : c.Symmetric (lattice .a90) mirror) (pts : List P)
    (hr : ∀ p ∈ pts, OnMesh nq p)
    (hc : ∀ i j : Nat, i < nq → j < nq → ∃ p ∈ pts, ∃ s s' : ℤ, (s = 1 ∨ s = -1) ∧ (s' = 1 ∨ s' = -1) ∧
      (nq : ℤ) ∣ i - s * p.1 ∧ (nq : ℤ) ∣ j - s' * p.2) :
    ∃ t, full .a90 nq c.r (c.input nq pts) = some t ∧ ∀ i j : Nat, i < nq → j < nq → t i j = some (c.D nq i j) := by
  refine cover c .a90 nq h0 hm (fun h => absurd rfl h) pts ?_ ?_
  · intro Q hQ n hn reflect
    obtain ⟨⟨h1, h2⟩, h3, h4⟩ := hr Q hQ
    obtain ⟨k1, k2⟩ := Q
    simp only at h1 h2 h3 h4
    simp only [turns, List.mem_cons, List.not_mem_nil, or_false] at hn
    subst hn
    cases reflect <;>
      simp only [image, Verif.Mesh.refl, Function.iterate_zero_apply, if_true, Bool.false_eq_true, if_false] <;> omega
  · intro i j hi hj
    obtain ⟨p, hp, s, s', hs, hs', d1, d2⟩ := hc i j hi hj
    refine ⟨p, hp, 0, by simp [turns], decide (s ≠ s'), s', hs', ?_⟩
    rcases hs with rfl | rfl <;> rcases hs' with rfl | rfl <;>
      simp [image, Verif.Mesh.refl] at d1 d2 ⊢ <;> exact ⟨d1, d2⟩

/-- **C124**: For the square lattice, the irreducible points are not sufficient: The matrix at the second point along the first axis
is never set. -/
theorem C124_square_unset {nat : Nat} (c : Crystal nat) (nq : Nat) (h2 : 2 ≤ nq) (hm : c.Symmetric (lattice .a90) mirror)
    (pts : List P) (hp : ∀ p, p ∈ pts ↔ p ∈ irreducibles nq .a90) :
    ∃ t, full .a90 nq c.r (c.input nq pts) = some t ∧ t 1 0 = none := by
  have h0 : 0 < nq := by omega
  obtain ⟨t, h⟩ := full_some c .a90 nq h0 hm (fun h => absurd rfl h) pts (by
    intro Q hQ n hn reflect
    obtain ⟨⟨⟨h1, h2⟩, h3, h4⟩, -⟩ := (C20_irreducibles nq .a90 Q).1 ((hp Q).1 hQ)
    obtain ⟨k1, k2⟩ := Q
    simp only at h1 h2 h3 h4
    simp only [turns, List.mem_cons, List.not_mem_nil, or_false] at hn
    subst hn
    cases reflect <;>
      simp only [image, Verif.Mesh.refl, Function.iterate_zero_apply, if_true, Bool.false_eq_true, if_false] <;> omega)
  refine ⟨t, h, ?_⟩
  rw [entries c .a90 nq h0 hm (fun h => absurd rfl h) pts t h, if_neg]
  rintro ⟨w, hw, e1, e2⟩
  obtain ⟨Q, hQ, n, hn, reflect, hw⟩ := (mem_assigns c .a90 nq h0 hm (fun h => absurd rfl h) pts w).1 hw
  obtain ⟨⟨⟨b1, b2⟩, b3, b4⟩, hb⟩ := (C20_irreducibles nq .a90 Q).1 ((hp Q).1 hQ)
  obtain ⟨k1, k2⟩ := Q
  simp only at b1 b2 b3 b4
  obtain ⟨-, a, ha⟩ := pyIndex_spec nq _ _ e1
  obtain ⟨-, b, hb'⟩ := pyIndex_spec nq _ _ e2
  simp only [turns, List.mem_cons, List.not_mem_nil, or_false] at hn
  subst hn
  have key : k2 = 0 ∧ k1 ≠ 0 := by
    have hk2 : (nq : ℤ) ∣ k2 := by
      rcases hw with rfl | rfl <;> cases reflect <;>
        simp only [image, Verif.Mesh.refl, Function.iterate_zero_apply, if_true, Bool.false_eq_true, if_false] at hb'
      · exact ⟨b, by rw [hb']; push_cast; ring⟩
      · exact ⟨b, by rw [hb']; push_cast; ring⟩
      · exact ⟨-b, by rw [← neg_neg k2, hb']; push_cast; ring⟩
      · exact ⟨-b, by rw [← neg_neg k2, hb']; push_cast; ring⟩
    refine ⟨Int.eq_zero_of_abs_lt_dvd hk2 (by rw [abs_lt]; omega), fun hk1 => ?_⟩
    subst hk1
    have hone : (nq : ℤ) ∣ 1 := by
      rcases hw with rfl | rfl <;> cases reflect <;>
        simp only [image, Verif.Mesh.refl, Function.iterate_zero_apply, if_true, Bool.false_eq_true, if_false] at ha
      all_goals exact ⟨-a, by push_cast at ha; linarith⟩
    have := Int.le_of_dvd (by norm_num) hone
    omega
  obtain ⟨rfl, hk1⟩ := key
  refine hb (0, k1) ⟨⟨by simp, by simp only; omega⟩, by simp only; omega, by simp only; omega⟩
    ⟨swapL, isometry_swapL .a90, ⟨0, by simp [act_swapL]⟩, ⟨0, by simp [act_swapL]⟩⟩ (Or.inl (by simp only; omega))

/-- An atom on a square lattice, attached to its site. -/
noncomputable def square : Crystal 1 where
  r _ := ![0, 0]
  force _ _ := Finsupp.single (0, 0) 1

theorem square_mirror : square.Symmetric (lattice .a90) mirror := by
  intro n m
  refine ⟨⟨fun R => (-R.1, R.2), fun R => (-R.1, R.2), fun R => by simp, fun R => by simp⟩, fun R => ⟨fun i => ?_, ?_⟩⟩
  · fin_cases i <;> simp [Fin.sum_univ_two, mirror, pos, lattice, square]
  · obtain ⟨x, y⟩ := R
    simp only [square, Equiv.coe_fn_mk, Finsupp.single_apply, Prod.mk.injEq]
    have e : (0 = -x ∧ 0 = y) ↔ (0 = x ∧ 0 = y) := by omega
    simp only [e]
    split
    · ext i j
      fin_cases i <;> fin_cases j <;> simp [mirror, Matrix.mul_apply, Fin.sum_univ_three]
    · simp

example : ∃ t, full .a90 2 square.r (square.input 2 [(0, 0), (0, 1), (1, 1), (1, 0)]) = some t ∧
    ∀ i j : Nat, i < 2 → j < 2 → t i j = some (square.D 2 i j) :=
  C124_square square 2 (by norm_num) square_mirror _ (by simp [OnMesh]) (by
    intro i j hi hj
    refine ⟨((i : ℤ), (j : ℤ)), ?_, 1, 1, Or.inl rfl, Or.inl rfl, by simp, by simp⟩
    interval_cases i <;> interval_cases j <;> simp)

example : ∃ t, full .a90 2 square.r (square.input 2 (irreducibles 2 .a90).toList) = some t ∧ t 1 0 = none :=
  C124_square_unset square 2 le_rfl square_mirror _ fun _ => Finset.mem_toList

end Verif.Irr
