import Verif.Phon.Vectors
import Verif.ElPh.LongRange
import Verif.Diag.SupercellMesh
import Verif.Bravais.Props
import Verif.Phon.SelfTerm

/-!
# Long-range terms of supercells (C157)

`elphmod/ph.py` 567-626 (attributes of the supercell as far as long-range terms are concerned), 329-503, 174-180.
-/

namespace Verif.Phon.Super

open Verif.Lattice (V3 Supercell detSpec vadd latPoint)
open Verif.Fourier (phase)
open Verif.TB (superK)
open Verif.Diag.Derivatives (Congr sum_cells phase_of_congr_zero)
open Verif.ElPh (gLr gLr_eq)

variable {n : Nat}

/-! ### Model -/

/-- Index of an atom of the supercell: atom of a cell (`np.tile`, `for ... in ph.cells for na in range(self.nat)`). -/
abbrev at' {C n : Nat} (c : Fin C) (na : Fin n) : Fin (C * n) := finProdFinEquiv (c, na)

/-- `np.tile(f, len(ph.cells))`, `elphmod/ph.py` 571, 613, 618. -/
def tile {α : Type} {C n : Nat} (f : Fin n → α) (A : Fin (C * n)) : α := f (finProdFinEquiv.symm A).2

/-- `np.dot(ph.N, self.a)`, `elphmod/ph.py` 572. -/
def superA (s : Supercell) (a : Fin 3 → Fin 3 → ℝ) (i x : Fin 3) : ℝ :=
  ((![s.N1, s.N2, s.N3] i).1 : ℝ) * a 0 x + ((![s.N1, s.N2, s.N3] i).2.1 : ℝ) * a 1 x + ((![s.N1, s.N2, s.N3] i).2.2 : ℝ) * a 2 x

/-- `reciprocals(*a)`, `elphmod/ph.py` 356. -/
noncomputable def recip (a : Fin 3 → Fin 3 → ℝ) (i : Fin 3) : Fin 3 → ℝ :=
  ![(Verif.Bravais.reciprocals3 (a 0) (a 1) (a 2)).1, (Verif.Bravais.reciprocals3 (a 0) (a 1) (a 2)).2.1,
    (Verif.Bravais.reciprocals3 (a 0) (a 1) (a 2)).2.2] i

/-- `elphmod/ph.py` 567-621 (`supercell`) and 356: attributes used for long-range terms. -/
noncomputable def superPolar (s : Supercell) (p : Polar n) : Polar (s.cells.length * n) where
  a := superA s p.a
  b := recip (superA s p.a)
  r := fun A x =>
    let c := s.cells.getD (finProdFinEquiv.symm A).1 (0, 0, 0)
    (c.1 : ℝ) * p.a 0 x + (c.2.1 : ℝ) * p.a 1 x + (c.2.2 : ℝ) * p.a 2 x + p.r (finProdFinEquiv.symm A).2 x
  eps := p.eps
  Z := tile p.Z
  Q := p.Q.map tile
  M := tile p.M
  lr2d := p.lr2d
  L := p.L
  perp := p.perp
  divideMass := p.divideMass
  alpha := p.alpha * (norm3 (superA s p.a 0) / norm3 (p.a 0)) ^ 2

/-! ### Specification -/

/-- Specification: reciprocal lattice vectors. -/
def Dual (p : Polar n) : Prop := ∀ i j, dot3 (p.a i) (p.b j) = if i = j then 1 else 0

/-- Specification: supercell vectors in the plane if the crystal is two-dimensional. -/
def Plane (N1 N2 N3 : V3) : Prop := N1.2.2 = 0 ∧ N2.2.2 = 0 ∧ N3 = (0, 0, 1)

/-- Specification: no reciprocal lattice vector below the cutoff is missed (see C80 for when this is the case). -/
def Complete (p : Polar n) (Gmax : ℝ) (G2d : Bool) : Prop := ∀ m : V3, (p.lr2d = true ∨ G2d = true → m.2.2 = 0) →
  keK p (gVec p m) < scale p * Gmax → gVec p m ∈ gList p Gmax G2d

/-! ### Geometry -/

theorem tile_at {α : Type} {C n : Nat} (f : Fin n → α) (c : Fin C) (na : Fin n) : tile f (at' c na) = f na := by
  unfold tile at'
  rw [Equiv.symm_apply_apply]

section
variable {N1 N2 N3 : V3} {s : Supercell}

theorem supercell_spec (hD : detSpec N1 N2 N3 ≠ 0) (hs : Verif.Lattice.supercell N1 N2 N3 = some s) :
    s.N1 = N1 ∧ s.N2 = N2 ∧ s.N3 = N3 ∧ (s.cells.length : ℝ) = |(detSpec N1 N2 N3 : ℝ)| ∧ s.cells.length ≠ 0 := by
  obtain ⟨s', h1, h2, h3, h4, _, h6, _⟩ := Verif.Lattice.C17_supercell N1 N2 N3 hD
  rw [hs, Option.some.injEq] at h1
  subst h1
  refine ⟨h2, h3, h4, ?_, ?_⟩
  · rw [h6, Nat.cast_natAbs]
    push_cast
    rfl
  · rw [h6]
    exact Int.natAbs_ne_zero.2 hD

/-- Triple product. -/
def triple (a : Fin 3 → Fin 3 → ℝ) : ℝ := Verif.Bravais.dot3 (a 0) (Verif.Bravais.cross (a 1) (a 2))

theorem triple_super (hD : detSpec N1 N2 N3 ≠ 0) (hs : Verif.Lattice.supercell N1 N2 N3 = some s) (a : Fin 3 → Fin 3 → ℝ) :
    triple (superA s a) = (detSpec N1 N2 N3 : ℝ) * triple a := by
  obtain ⟨h1, h2, h3, _⟩ := supercell_spec hD hs
  unfold triple superA Verif.Bravais.dot3 Verif.Bravais.cross detSpec
  rw [h1, h2, h3]
  simp
  ring

theorem triple_det (a : Fin 3 → Fin 3 → ℝ) : triple a = (Matrix.of a).det := by
  unfold triple Verif.Bravais.dot3 Verif.Bravais.cross
  rw [Matrix.det_fin_three]
  simp
  ring

theorem dual_mul {a b : Fin 3 → Fin 3 → ℝ} (h : ∀ i j, dot3 (a i) (b j) = if i = j then 1 else 0) :
    (Matrix.of a : Matrix (Fin 3) (Fin 3) ℝ) * (Matrix.of b).transpose = 1 := by
  ext i j
  rw [Matrix.mul_apply, Matrix.one_apply, ← h i j]
  rfl

theorem triple_ne {a b : Fin 3 → Fin 3 → ℝ} (h : ∀ i j, dot3 (a i) (b j) = if i = j then 1 else 0) : triple a ≠ 0 := by
  have h1 := congrArg Matrix.det (dual_mul h)
  rw [Matrix.det_mul, Matrix.det_one] at h1
  rw [triple_det]
  exact left_ne_zero_of_mul (by rw [h1]; exact one_ne_zero)

theorem dot3_eq (u v : Fin 3 → ℝ) : Verif.Bravais.dot3 u v = dot3 u v := by
  unfold Verif.Bravais.dot3 dot3
  rw [Fin.sum_univ_three]

theorem recip_dual (a : Fin 3 → Fin 3 → ℝ) (h : triple a ≠ 0) (i j : Fin 3) : dot3 (a i) (recip a j) = if i = j then 1 else 0 := by
  have h1 := Verif.Bravais.C30_reciprocals_3d a h i j
  rwa [dot3_eq] at h1

theorem super_dual (hD : detSpec N1 N2 N3 ≠ 0) (hs : Verif.Lattice.supercell N1 N2 N3 = some s) (p : Polar n) (hp : Dual p) :
    Dual (superPolar s p) := by
  have h : triple (superA s p.a) ≠ 0 := by
    rw [triple_super hD hs]
    exact mul_ne_zero (Int.cast_ne_zero.2 hD) (triple_ne hp)
  exact fun i j => recip_dual (superA s p.a) h i j

/-- Integer coordinates of the supercell for those of the unit cell. -/
def mulN (N1 N2 N3 : V3) (m : V3) : V3 :=
  (N1.1 * m.1 + N1.2.1 * m.2.1 + N1.2.2 * m.2.2, N2.1 * m.1 + N2.2.1 * m.2.1 + N2.2.2 * m.2.2,
    N3.1 * m.1 + N3.2.1 * m.2.1 + N3.2.2 * m.2.2)

/-- Linear combination of reciprocal lattice vectors. -/
def lin (b : Fin 3 → Fin 3 → ℝ) (t : Fin 3 → ℝ) (x : Fin 3) : ℝ := t 0 * b 0 x + t 1 * b 1 x + t 2 * b 2 x

theorem lin_super (hD : detSpec N1 N2 N3 ≠ 0) (hs : Verif.Lattice.supercell N1 N2 N3 = some s) (p : Polar n) (hp : Dual p)
    (t : Fin 3 → ℝ) : lin (superPolar s p).b (superK N1 N2 N3 t) = lin p.b t := by
  obtain ⟨h1, h2, h3, _⟩ := supercell_spec hD hs
  let N : Matrix (Fin 3) (Fin 3) ℝ := Matrix.of fun i j => ![((![N1, N2, N3] i).1 : ℝ), ((![N1, N2, N3] i).2.1 : ℝ), ((![N1, N2, N3] i).2.2 : ℝ)] j
  let A : Matrix (Fin 3) (Fin 3) ℝ := Matrix.of p.a
  let B : Matrix (Fin 3) (Fin 3) ℝ := Matrix.of p.b
  let B' : Matrix (Fin 3) (Fin 3) ℝ := Matrix.of (superPolar s p).b
  have hA' : (Matrix.of (superPolar s p).a : Matrix (Fin 3) (Fin 3) ℝ) = N * A := by
    ext i x
    rw [Matrix.mul_apply, Fin.sum_univ_three]
    show superA s p.a i x = _
    unfold superA
    rw [h1, h2, h3]
    rfl
  have e1 : A * B.transpose = 1 := dual_mul hp
  have e2 : N * A * B'.transpose = 1 := by
    rw [← hA']
    exact dual_mul (super_dual hD hs p hp)
  have e3 : A * (B'.transpose * N) = 1 := by
    rw [← Matrix.mul_assoc]
    rw [Matrix.mul_assoc] at e2
    exact mul_eq_one_comm.1 e2
  have e4 : B.transpose = B'.transpose * N := by
    have h5 : B.transpose * A = 1 := mul_eq_one_comm.1 e1
    calc B.transpose = B.transpose * (A * (B'.transpose * N)) := by rw [e3, Matrix.mul_one]
      _ = _ := by rw [← Matrix.mul_assoc, h5, Matrix.one_mul]
  funext x
  have e5 : ∀ j, p.b j x = ∑ i, (superPolar s p).b i x * N i j := by
    intro j
    have := congrFun (congrFun e4 x) j
    rw [Matrix.mul_apply] at this
    exact this
  unfold lin
  rw [e5 0, e5 1, e5 2]
  simp only [Fin.sum_univ_three]
  show superK N1 N2 N3 t 0 * _ + superK N1 N2 N3 t 1 * _ + superK N1 N2 N3 t 2 * _ = _
  unfold Verif.TB.superK
  simp [N]
  ring

/-- Components of a vector. -/
theorem lin_dot {a b : Fin 3 → Fin 3 → ℝ} (h : ∀ i j, dot3 (a i) (b j) = if i = j then 1 else 0) (t : Fin 3 → ℝ) (i : Fin 3) :
    dot3 (lin b t) (a i) = t i := by
  have h0 := h i 0
  have h1 := h i 1
  have h2 := h i 2
  unfold dot3 at *
  unfold lin
  rw [Fin.sum_univ_three] at *
  have e : (t 0 * b 0 0 + t 1 * b 1 0 + t 2 * b 2 0) * a i 0 + (t 0 * b 0 1 + t 1 * b 1 1 + t 2 * b 2 1) * a i 1 +
      (t 0 * b 0 2 + t 1 * b 1 2 + t 2 * b 2 2) * a i 2 =
      t 0 * (if i = 0 then 1 else 0) + t 1 * (if i = 1 then 1 else 0) + t 2 * (if i = 2 then 1 else 0) := by
    linear_combination t 0 * h0 + t 1 * h1 + t 2 * h2
  rw [e]
  fin_cases i <;> simp

/-- Vectors with given components are unique. -/
theorem dot_lin {a b : Fin 3 → Fin 3 → ℝ} (h : ∀ i j, dot3 (a i) (b j) = if i = j then 1 else 0) (v : Fin 3 → ℝ) :
    lin b (fun i => dot3 v (a i)) = v := by
  have e : (Matrix.of b : Matrix (Fin 3) (Fin 3) ℝ).transpose * Matrix.of a = 1 := mul_eq_one_comm.1 (dual_mul h)
  funext x
  have e1 : ∀ y, b 0 x * a 0 y + b 1 x * a 1 y + b 2 x * a 2 y = if x = y then 1 else 0 := by
    intro y
    have := congrFun (congrFun e x) y
    rw [Matrix.mul_apply, Fin.sum_univ_three, Matrix.one_apply] at this
    exact this
  unfold lin dot3
  simp only [Fin.sum_univ_three]
  have e2 : (v 0 * a 0 0 + v 1 * a 0 1 + v 2 * a 0 2) * b 0 x + (v 0 * a 1 0 + v 1 * a 1 1 + v 2 * a 1 2) * b 1 x +
      (v 0 * a 2 0 + v 1 * a 2 1 + v 2 * a 2 2) * b 2 x =
      v 0 * (if x = 0 then 1 else 0) + v 1 * (if x = 1 then 1 else 0) + v 2 * (if x = 2 then 1 else 0) := by
    rw [← e1 0, ← e1 1, ← e1 2]
    ring
  rw [e2]
  fin_cases x <;> simp

/-- Integer coordinates as real numbers, times `2 π`. -/
noncomputable def ints (m : V3) : Fin 3 → ℝ := fun i => 2 * Real.pi * (![(m.1 : ℝ), (m.2.1 : ℝ), (m.2.2 : ℝ)] i)

theorem gVec_lin (p : Polar n) (m : V3) : gVec p m = lin p.b (ints m) := by
  funext x
  unfold gVec lin ints
  simp
  ring

theorem ints_mulN (m : V3) : ints (mulN N1 N2 N3 m) = superK N1 N2 N3 (ints m) := by
  funext i
  unfold ints mulN Verif.TB.superK
  fin_cases i <;> simp <;> ring

theorem ints_inj {m m' : V3} (h : ints m = ints m') : m = m' := by
  have hpi : (2 * Real.pi) ≠ 0 := by positivity
  have h0 := mul_left_cancel₀ hpi (congrFun h 0)
  have h1 := mul_left_cancel₀ hpi (congrFun h 1)
  have h2 := mul_left_cancel₀ hpi (congrFun h 2)
  simp at h0 h1 h2
  exact Prod.ext h0 (Prod.ext h1 h2)

theorem gVec_inj {p : Polar n} (hp : Dual p) {m m' : V3} (h : gVec p m = gVec p m') : m = m' := by
  apply ints_inj
  funext i
  rw [← lin_dot hp (ints m) i, ← lin_dot hp (ints m') i, ← gVec_lin, ← gVec_lin, h]

theorem gVec_super (hD : detSpec N1 N2 N3 ≠ 0) (hs : Verif.Lattice.supercell N1 N2 N3 = some s) (p : Polar n) (hp : Dual p) (m : V3) :
    gVec (superPolar s p) (mulN N1 N2 N3 m) = gVec p m := by
  rw [gVec_lin, gVec_lin, ints_mulN, lin_super hD hs p hp]

/-- Components of a reciprocal lattice vector of the supercell with respect to the unit cell. -/
noncomputable def comps (s : Supercell) (p : Polar n) (m : V3) : Fin 3 → ℝ := fun i => dot3 (gVec (superPolar s p) m) (p.a i)

theorem lin_comps (p : Polar n) (hp : Dual p) (m : V3) : lin p.b (comps s p m) = gVec (superPolar s p) m := dot_lin hp _

theorem super_comps (hD : detSpec N1 N2 N3 ≠ 0) (hs : Verif.Lattice.supercell N1 N2 N3 = some s) (p : Polar n) (hp : Dual p) (m : V3) :
    superK N1 N2 N3 (comps s p m) = ints m := by
  funext i
  have h1 := lin_super hD hs p hp (comps s p m)
  rw [lin_comps p hp, gVec_lin] at h1
  rw [← lin_dot (super_dual hD hs p hp) (superK N1 N2 N3 (comps s p m)) i, h1, lin_dot (super_dual hD hs p hp)]

theorem ints_congr (m : V3) : Congr (ints m) fun _ => 0 := by
  refine ⟨![m.1, m.2.1, m.2.2], ?_⟩
  funext x
  unfold ints
  fin_cases x <;> simp

theorem comps_congr (hD : detSpec N1 N2 N3 ≠ 0) (hs : Verif.Lattice.supercell N1 N2 N3 = some s) (p : Polar n) (hp : Dual p) (m : V3) :
    Congr (comps s p m) (fun _ => 0) ↔ ∃ m', m = mulN N1 N2 N3 m' := by
  constructor
  · rintro ⟨z, hz⟩
    refine ⟨(z 0, z 1, z 2), ?_⟩
    have h1 : comps s p m = ints (z 0, z 1, z 2) := by
      rw [hz]
      funext x
      unfold ints
      fin_cases x <;> simp
    apply gVec_inj (super_dual hD hs p hp)
    rw [gVec_super hD hs p hp, ← lin_comps p hp, h1, gVec_lin]
  · rintro ⟨m', rfl⟩
    have h1 : comps s p (mulN N1 N2 N3 m') = ints m' := by
      funext i
      unfold comps
      rw [gVec_super hD hs p hp, gVec_lin, lin_dot hp]
    rw [h1]
    exact ints_congr m'

/-! ### Prefactors -/

theorem scale_super (hD : detSpec N1 N2 N3 ≠ 0) (hs : Verif.Lattice.supercell N1 N2 N3 = some s) (p : Polar n) (hp : Dual p) :
    scale (superPolar s p) = scale p := by
  have hpos : ∀ a b : Fin 3 → Fin 3 → ℝ, (∀ i j, dot3 (a i) (b j) = if i = j then 1 else 0) → norm3 (a 0) ≠ 0 := by
    intro a b h h0
    unfold norm3 at h0
    rw [Real.sqrt_eq_zero (Finset.sum_nonneg fun x _ => sq_nonneg _), Finset.sum_eq_zero_iff_of_nonneg fun x _ => sq_nonneg _] at h0
    have h1 := h 0 0
    unfold dot3 at h1
    rw [Finset.sum_eq_zero] at h1
    · simp at h1
    · intro x hx
      rw [pow_eq_zero_iff two_ne_zero |>.1 (h0 x hx), zero_mul]
  have h1 := hpos p.a p.b hp
  have h2 := hpos (superPolar s p).a (superPolar s p).b (super_dual hD hs p hp)
  unfold scale
  show 4 * (p.alpha * (norm3 (superA s p.a 0) / norm3 (p.a 0)) ^ 2) * (2 * Real.pi / norm3 (superA s p.a 0)) ^ 2 = _
  have h2' : norm3 (superA s p.a 0) ≠ 0 := h2
  field_simp

theorem keK_super (p : Polar n) (K : Fin 3 → ℝ) : keK (superPolar s p) K = keK p K := rfl

theorem prefactor_super (hD : detSpec N1 N2 N3 ≠ 0) (hs : Verif.Lattice.supercell N1 N2 N3 = some s) (p : Polar n)
    (h2 : p.lr2d = true → Plane N1 N2 N3) : prefactor (superPolar s p) = prefactor p / s.cells.length := by
  obtain ⟨e1, e2, e3, e4, _⟩ := supercell_spec hD hs
  unfold prefactor
  rw [e4]
  show (if p.lr2d = true then _ else _) = (if p.lr2d = true then _ else _) / _
  cases h : p.lr2d
  · rw [if_neg (by simp), if_neg (by simp)]
    have h3 := triple_super hD hs p.a
    have h4 : ∀ a : Fin 3 → Fin 3 → ℝ, ∑ x, a 0 x * Verif.Bravais.cross (a 1) (a 2) x = triple a := by
      intro a
      unfold triple Verif.Bravais.dot3
      rw [Fin.sum_univ_three]
    rw [h4, h4]
    show _ / |triple (superA s p.a)| = _
    rw [h3, abs_mul]
    rw [div_div, mul_comm |(detSpec N1 N2 N3 : ℝ)|]
  · rw [if_pos rfl, if_pos rfl]
    obtain ⟨g1, g2, g3⟩ := h2 h
    have h3 : norm3 (Verif.Bravais.cross (superA s p.a 0) (superA s p.a 1)) =
        |(detSpec N1 N2 N3 : ℝ)| * norm3 (Verif.Bravais.cross (p.a 0) (p.a 1)) := by
      unfold norm3
      rw [← Real.sqrt_sq_eq_abs, ← Real.sqrt_mul (sq_nonneg _)]
      congr 1
      rw [Fin.sum_univ_three, Fin.sum_univ_three]
      unfold superA Verif.Bravais.cross detSpec
      rw [e1, e2, e3, g3]
      simp [g1, g2]
      ring
    show _ / norm3 (Verif.Bravais.cross (superA s p.a 0) (superA s p.a 1)) = _
    rw [h3, div_div, mul_comm |(detSpec N1 N2 N3 : ℝ)|]

theorem b22_super (hD : detSpec N1 N2 N3 ≠ 0) (hs : Verif.Lattice.supercell N1 N2 N3 = some s) (p : Polar n) (hp : Dual p)
    (h2 : Plane N1 N2 N3) : (superPolar s p).b 2 = p.b 2 := by
  obtain ⟨g1, g2, rfl⟩ := h2
  have h1 := lin_super hD hs p hp ![0, 0, 1]
  funext x
  have h3 := congrFun h1 x
  unfold lin Verif.TB.superK at h3
  simpa [g1, g2] using h3

theorem rEff_super (hD : detSpec N1 N2 N3 ≠ 0) (hs : Verif.Lattice.supercell N1 N2 N3 = some s) (p : Polar n) (hp : Dual p)
    (h2 : Plane N1 N2 N3) : rEff (superPolar s p) = rEff p := by
  funext x y
  unfold rEff
  rw [b22_super hD hs p hp h2]
  rfl

theorem krK_super (hD : detSpec N1 N2 N3 ≠ 0) (hs : Verif.Lattice.supercell N1 N2 N3 = some s) (p : Polar n) (hp : Dual p)
    (h2 : Plane N1 N2 N3) (K : Fin 3 → ℝ) : krK (superPolar s p) K = krK p K := by
  unfold krK
  rw [rEff_super hD hs p hp h2]

theorem factor_super (hD : detSpec N1 N2 N3 ≠ 0) (hs : Verif.Lattice.supercell N1 N2 N3 = some s) (p : Polar n) (hp : Dual p)
    (h2 : p.lr2d = true → Plane N1 N2 N3) (K : Fin 3 → ℝ) : factor (superPolar s p) K = factor p K / s.cells.length := by
  have e1 := prefactor_super hD hs p h2
  have e2 := scale_super hD hs p hp
  unfold factor
  rw [e1, e2]
  have e3 : (superPolar s p).lr2d = p.lr2d := rfl
  have e4 : (superPolar s p).L = p.L := rfl
  rw [e3, e4]
  cases h : p.lr2d
  · simp only [keK_super]
    ring
  · rcases hL : p.L with _ | l
    · simp only [keK_super, krK_super hD hs p hp (h2 h)]
      ring
    · have e5 : tanhFactor (superPolar s p) l K = tanhFactor p l K := rfl
      simp only [keK_super, krK_super hD hs p hp (h2 h), e5]
      ring

theorem factorPerp_super (hD : detSpec N1 N2 N3 ≠ 0) (hs : Verif.Lattice.supercell N1 N2 N3 = some s) (p : Polar n) (hp : Dual p)
    (h2 : p.lr2d = true) (h2' : Plane N1 N2 N3) (l : ℝ) (K : Fin 3 → ℝ) :
    factorPerp (superPolar s p) l K = factorPerp p l K / s.cells.length := by
  have e1 := prefactor_super hD hs p fun _ => h2'
  unfold factorPerp
  rw [e1, rEff_super hD hs p hp h2']
  have e5 : tanhFactor (superPolar s p) l K = tanhFactor p l K := rfl
  simp only [keK_super, e5]
  ring

theorem dotFactor_super (p : Polar n) (z : Fin n → Fin 3 → Fin 3 → ℝ) (q : Option (Fin n → Fin 3 → Fin 3 → Fin 3 → ℝ))
    (K : Fin 3 → ℝ) (c : Fin s.cells.length) (na : Fin n) (u : Fin 3) :
    dotFactor (superPolar s p) (tile z) (q.map tile) K (at' c na) u = dotFactor p z q K na u := by
  unfold dotFactor
  rw [tile_at]
  have e3 : (superPolar s p).lr2d = p.lr2d := rfl
  have e4 : (superPolar s p).L = p.L := rfl
  rcases q with _ | q
  · rfl
  · simp only [Option.map_some, tile_at, e3, e4, keK_super]

theorem dotPerp_super (p : Polar n) (z : Fin n → Fin 3 → Fin 3 → ℝ) (q : Option (Fin n → Fin 3 → Fin 3 → Fin 3 → ℝ))
    (K : Fin 3 → ℝ) (c : Fin s.cells.length) (na : Fin n) (u : Fin 3) :
    dotPerp (superPolar s p) (tile z) (q.map tile) K (at' c na) u = dotPerp p z q K na u := by
  unfold dotPerp
  rw [tile_at]
  rcases q with _ | q
  · rfl
  · simp only [Option.map_some, tile_at, keK_super]

/-! ### Sum over reciprocal lattice vectors -/

open Classical in
/-- Coordinates of the reciprocal lattice vectors. -/
noncomputable def gSet (p : Polar n) (Gmax : ℝ) (G2d : Bool) : Finset V3 :=
  ((box (nr p Gmax G2d)).filter fun m => decide (keK p (gVec p m) < scale p * Gmax)).toFinset

/-- Vector for given coordinates. -/
noncomputable def kv (p : Polar n) (q : Fin 3 → ℝ) (m : V3) (x : Fin 3) : ℝ :=
  gVec p m x + q 0 * p.b 0 x + q 1 * p.b 1 x + q 2 * p.b 2 x

theorem kv_lin (p : Polar n) (q : Fin 3 → ℝ) (m : V3) (x : Fin 3) : kv p q m x = gVec p m x + lin p.b q x := by
  unfold kv lin
  ring

open Classical in
theorem list_sum_filter {α : Type} (l : List α) (P : α → Prop) (f : α → ℂ) :
    ((l.filter fun x => decide (P x)).map f).sum = (l.map fun x => if P x then f x else 0).sum := by
  induction l with
  | nil => rfl
  | cons a l ih =>
    rw [List.filter_cons, List.map_cons, List.sum_cons, ← ih]
    by_cases h : P a
    · simp [h]
    · simp [h]

open Classical in
theorem kList_sum (p : Polar n) (Gmax : ℝ) (G2d : Bool) (q : Fin 3 → ℝ) (A : (Fin 3 → ℝ) → ℂ) :
    ((kList p (gList p Gmax G2d) q).map A).sum =
      ∑ m ∈ gSet p Gmax G2d, if keK p (kv p q m) > 1e-10 then A (kv p q m) else 0 := by
  unfold gSet
  rw [List.sum_toFinset _ ((nodup_box _).filter _)]
  have h1 : kList p (gList p Gmax G2d) q = ((gList p Gmax G2d).map fun g => fun x => g x + q 0 * p.b 0 x + q 1 * p.b 1 x +
      q 2 * p.b 2 x).filter fun K => decide (keK p K > 1e-10) := by
    unfold kList
    apply List.filter_congr
    intro K _
    congr
  rw [h1, list_sum_filter, List.map_map]
  unfold gList
  rw [List.map_map]
  rfl

theorem mem_gSet {p : Polar n} (hp : Dual p) {Gmax : ℝ} {G2d : Bool} (hc : Complete p Gmax G2d) (m : V3) :
    m ∈ gSet p Gmax G2d ↔ (p.lr2d = true ∨ G2d = true → m.2.2 = 0) ∧ keK p (gVec p m) < scale p * Gmax := by
  classical
  unfold gSet
  rw [List.mem_toFinset]
  constructor
  · intro h
    obtain ⟨h1, h2⟩ := List.mem_filter.1 h
    refine ⟨fun h3 => ?_, by simpa using h2⟩
    have h4 := ((mem_box _ _).1 h1).2.2
    have h5 : nr p Gmax G2d 2 = 0 := by
      unfold nr
      rw [if_pos ⟨rfl, by simpa using h3⟩]
    rw [h5] at h4
    push_cast at h4
    omega
  · rintro ⟨h1, h2⟩
    have h3 := hc m h1 h2
    unfold gList at h3
    obtain ⟨m', h4, h5⟩ := List.mem_map.1 h3
    rw [← gVec_inj hp h5]
    convert h4

theorem mulN_inj (hD : detSpec N1 N2 N3 ≠ 0) (hs : Verif.Lattice.supercell N1 N2 N3 = some s) (p : Polar n) (hp : Dual p) :
    Function.Injective (mulN N1 N2 N3) := by
  intro m m' h
  apply gVec_inj hp
  rw [← gVec_super hD hs p hp, ← gVec_super hD hs p hp, h]

theorem mulN_third (h : Plane N1 N2 N3) (m : V3) : (mulN N1 N2 N3 m).2.2 = m.2.2 := by
  obtain ⟨_, _, rfl⟩ := h
  simp [mulN]

theorem mem_gSet_super (hD : detSpec N1 N2 N3 ≠ 0) (hs : Verif.Lattice.supercell N1 N2 N3 = some s) (p : Polar n) (hp : Dual p)
    {Gmax : ℝ} {G2d : Bool} (hc : Complete p Gmax G2d) (hc' : Complete (superPolar s p) Gmax G2d)
    (h2 : p.lr2d = true ∨ G2d = true → Plane N1 N2 N3) (m : V3) :
    mulN N1 N2 N3 m ∈ gSet (superPolar s p) Gmax G2d ↔ m ∈ gSet p Gmax G2d := by
  rw [mem_gSet hp hc, mem_gSet (super_dual hD hs p hp) hc', gVec_super hD hs p hp, keK_super, scale_super hD hs p hp]
  refine and_congr_left fun _ => ?_
  show (p.lr2d = true ∨ G2d = true → _) ↔ _
  refine imp_congr_right fun h3 => ?_
  rw [mulN_third (h2 h3)]

/-- Phase of the position of a cell. -/
noncomputable def ex (a : Fin 3 → Fin 3 → ℝ) (c : V3) (K : Fin 3 → ℝ) : ℂ :=
  Complex.exp (-Complex.I * ((∑ x, K x * ((c.1 : ℝ) * a 0 x + (c.2.1 : ℝ) * a 1 x + (c.2.2 : ℝ) * a 2 x) : ℝ) : ℂ))

theorem ex_lin {a b : Fin 3 → Fin 3 → ℝ} (h : ∀ i j, dot3 (a i) (b j) = if i = j then 1 else 0) (c : V3) (t : Fin 3 → ℝ) :
    ex a c (lin b t) = star (phase c t) := by
  have h0 := lin_dot h t 0
  have h1 := lin_dot h t 1
  have h2 := lin_dot h t 2
  unfold ex phase
  rw [Complex.star_def, ← Complex.exp_conj]
  congr 1
  have e : (∑ x, lin b t x * ((c.1 : ℝ) * a 0 x + (c.2.1 : ℝ) * a 1 x + (c.2.2 : ℝ) * a 2 x)) =
      (c.1 : ℝ) * t 0 + (c.2.1 : ℝ) * t 1 + (c.2.2 : ℝ) * t 2 := by
    rw [← h0, ← h1, ← h2]
    unfold dot3
    simp only [Fin.sum_univ_three]
    ring
  rw [e]
  simp

theorem ex_add (a : Fin 3 → Fin 3 → ℝ) (c : V3) (K K' : Fin 3 → ℝ) : ex a c (fun x => K x + K' x) = ex a c K * ex a c K' := by
  unfold ex
  rw [← Complex.exp_add]
  congr 1
  rw [← mul_add, ← Complex.ofReal_add, ← Finset.sum_add_distrib]
  congr 2
  exact Finset.sum_congr rfl fun x _ => by ring

theorem expFactor_super (p : Polar n) (K : Fin 3 → ℝ) (c : Fin s.cells.length) (na : Fin n) :
    expFactor (superPolar s p) K (at' c na) = ex p.a (s.cells.getD c (0, 0, 0)) K * expFactor p K na := by
  unfold expFactor ex
  rw [← Complex.exp_add]
  congr 1
  rw [← mul_add, ← Complex.ofReal_add, ← Finset.sum_add_distrib]
  congr 2
  refine Finset.sum_congr rfl fun x _ => ?_
  show K x * (((s.cells.getD (finProdFinEquiv.symm (at' c na)).1 (0, 0, 0)).1 : ℝ) * p.a 0 x +
    ((s.cells.getD (finProdFinEquiv.symm (at' c na)).1 (0, 0, 0)).2.1 : ℝ) * p.a 1 x +
    ((s.cells.getD (finProdFinEquiv.symm (at' c na)).1 (0, 0, 0)).2.2 : ℝ) * p.a 2 x +
    p.r (finProdFinEquiv.symm (at' c na)).2 x) = _
  unfold at'
  rw [Equiv.symm_apply_apply]
  ring

theorem kv_super (hD : detSpec N1 N2 N3 ≠ 0) (hs : Verif.Lattice.supercell N1 N2 N3 = some s) (p : Polar n) (hp : Dual p)
    (q : Fin 3 → ℝ) (m : V3) : kv (superPolar s p) (superK N1 N2 N3 q) (mulN N1 N2 N3 m) = kv p q m := by
  funext x
  rw [kv_lin, kv_lin, gVec_super hD hs p hp, lin_super hD hs p hp]

theorem phase_star (c : V3) (q : Fin 3 → ℝ) : phase c q * star (phase c q) = 1 := by
  have h := Verif.TB.norm_phase c q
  rw [Complex.star_def, Complex.mul_conj, Complex.normSq_eq_norm_sq, h]
  norm_num

theorem ex_kv_super (hD : detSpec N1 N2 N3 ≠ 0) (hs : Verif.Lattice.supercell N1 N2 N3 = some s) (p : Polar n) (hp : Dual p)
    (c : V3) (q : Fin 3 → ℝ) (m : V3) :
    ex p.a c (kv (superPolar s p) (superK N1 N2 N3 q) m) = star (phase c (comps s p m)) * star (phase c q) := by
  have h1 : kv (superPolar s p) (superK N1 N2 N3 q) m = fun x => lin p.b (comps s p m) x + lin p.b q x := by
    funext x
    rw [kv_lin, lin_super hD hs p hp, lin_comps p hp]
  rw [h1, ex_add, ex_lin hp, ex_lin hp]

theorem ex_kv (p : Polar n) (hp : Dual p) (c : V3) (q : Fin 3 → ℝ) (m : V3) : ex p.a c (kv p q m) = star (phase c q) := by
  have h1 : kv p q m = fun x => lin p.b (ints m) x + lin p.b q x := by
    funext x
    rw [kv_lin, gVec_lin]
  rw [h1, ex_add, ex_lin hp, ex_lin hp, phase_of_congr_zero (ints_congr m), star_one, one_mul]

/-- Of the reciprocal lattice vectors of the supercell, only those of the unit cell remain. -/
theorem fold_list (hD : detSpec N1 N2 N3 ≠ 0) (hs : Verif.Lattice.supercell N1 N2 N3 = some s) (p : Polar n) (hp : Dual p)
    {Gmax : ℝ} {G2d : Bool} (hc : Complete p Gmax G2d) (hc' : Complete (superPolar s p) Gmax G2d)
    (h2 : p.lr2d = true ∨ G2d = true → Plane N1 N2 N3) (q : Fin 3 → ℝ) (A : (Fin 3 → ℝ) → ℂ) :
    ∑ j : Fin s.cells.length, phase (s.cells.getD j (0, 0, 0)) q *
        ((kList (superPolar s p) (gList (superPolar s p) Gmax G2d) (superK N1 N2 N3 q)).map fun K =>
          A K * ex p.a (s.cells.getD j (0, 0, 0)) K).sum =
      s.cells.length * ((kList p (gList p Gmax G2d) q).map A).sum := by
  classical
  simp only [kList_sum]
  simp only [Finset.mul_sum]
  rw [Finset.sum_comm]
  have h1 : ∀ m, (∑ j : Fin s.cells.length, phase (s.cells.getD j (0, 0, 0)) q *
      (if keK (superPolar s p) (kv (superPolar s p) (superK N1 N2 N3 q) m) > 1e-10 then
        A (kv (superPolar s p) (superK N1 N2 N3 q) m) *
          ex p.a (s.cells.getD j (0, 0, 0)) (kv (superPolar s p) (superK N1 N2 N3 q) m) else 0)) =
      if ∃ m', m = mulN N1 N2 N3 m' then (s.cells.length : ℂ) *
        (if keK p (kv (superPolar s p) (superK N1 N2 N3 q) m) > 1e-10 then A (kv (superPolar s p) (superK N1 N2 N3 q) m) else 0)
      else 0 := by
    intro m
    have h3 : ∀ j : Fin s.cells.length, phase (s.cells.getD j (0, 0, 0)) q *
        (if keK (superPolar s p) (kv (superPolar s p) (superK N1 N2 N3 q) m) > 1e-10 then
          A (kv (superPolar s p) (superK N1 N2 N3 q) m) *
            ex p.a (s.cells.getD j (0, 0, 0)) (kv (superPolar s p) (superK N1 N2 N3 q) m) else 0) =
        star (phase (s.cells.getD j (0, 0, 0)) (comps s p m)) *
          (if keK p (kv (superPolar s p) (superK N1 N2 N3 q) m) > 1e-10 then A (kv (superPolar s p) (superK N1 N2 N3 q) m)
            else 0) := by
      intro j
      rw [keK_super, ex_kv_super hD hs p hp]
      split_ifs
      · linear_combination (A (kv (superPolar s p) (superK N1 N2 N3 q) m) *
          star (phase (s.cells.getD j (0, 0, 0)) (comps s p m))) * phase_star (s.cells.getD j (0, 0, 0)) q
      · simp
    simp only [h3]
    rw [← Finset.sum_mul, ← star_sum]
    by_cases h4 : ∃ m', m = mulN N1 N2 N3 m'
    · rw [if_pos h4]
      rw [← comps_congr hD hs p hp] at h4
      simp only [phase_of_congr_zero h4]
      simp
    · rw [if_neg h4]
      rw [← comps_congr hD hs p hp] at h4
      rw [sum_cells hD hs _ (by rw [super_comps hD hs p hp]; exact ints_congr m) h4]
      simp
  simp only [h1]
  rw [← Finset.sum_filter]
  have h4 : (gSet (superPolar s p) Gmax G2d).filter (fun m => ∃ m', m = mulN N1 N2 N3 m') =
      (gSet p Gmax G2d).image (mulN N1 N2 N3) := by
    ext m
    rw [Finset.mem_filter, Finset.mem_image]
    constructor
    · rintro ⟨h5, m', rfl⟩
      exact ⟨m', (mem_gSet_super hD hs p hp hc hc' h2 m').1 h5, rfl⟩
    · rintro ⟨m', h5, rfl⟩
      exact ⟨(mem_gSet_super hD hs p hp hc hc' h2 m').2 h5, m', rfl⟩
  rw [h4, Finset.sum_image fun _ _ _ _ h => mulN_inj hD hs p hp h]
  refine Finset.sum_congr rfl fun m _ => ?_
  rw [kv_super hD hs p hp]

theorem mem_kList {p : Polar n} {Gmax : ℝ} {G2d : Bool} {q K : Fin 3 → ℝ} (h : K ∈ kList p (gList p Gmax G2d) q) :
    ∃ m, K = kv p q m := by
  unfold kList at h
  obtain ⟨g, hg, rfl⟩ := List.mem_map.1 (List.mem_filter.1 h).1
  unfold gList at hg
  obtain ⟨m, _, rfl⟩ := List.mem_map.1 hg
  exact ⟨m, rfl⟩

/-- Folding of sums over reciprocal lattice vectors for products of vectors. -/
theorem fold_pair (hD : detSpec N1 N2 N3 ≠ 0) (hs : Verif.Lattice.supercell N1 N2 N3 = some s) (p : Polar n) (hp : Dual p)
    {Gmax : ℝ} {G2d : Bool} (hc : Complete p Gmax G2d) (hc' : Complete (superPolar s p) Gmax G2d)
    (h2 : p.lr2d = true ∨ G2d = true → Plane N1 N2 N3) (q : Fin 3 → ℝ)
    (f f' : (Fin 3 → ℝ) → ℝ) (hf : ∀ K, f' K = f K / s.cells.length) (u v : (Fin 3 → ℝ) → ℂ) (i : Fin s.cells.length) (a b : Fin n) :
    ∑ j : Fin s.cells.length, phase (s.cells.getD j (0, 0, 0)) q *
        ((kList (superPolar s p) (gList (superPolar s p) Gmax G2d) (superK N1 N2 N3 q)).map fun K =>
          (f' K : ℂ) * star (u K * expFactor (superPolar s p) K (at' i a)) *
            (v K * expFactor (superPolar s p) K (at' j b))).sum =
      phase (s.cells.getD i (0, 0, 0)) q * ((kList p (gList p Gmax G2d) q).map fun K =>
        (f K : ℂ) * star (u K * expFactor p K a) * (v K * expFactor p K b)).sum := by
  have hC : (s.cells.length : ℂ) ≠ 0 := by exact_mod_cast (supercell_spec hD hs).2.2.2.2
  have h1 := fold_list hD hs p hp hc hc' h2 q fun K => ((f K : ℂ) / s.cells.length) *
    star (u K * (ex p.a (s.cells.getD i (0, 0, 0)) K * expFactor p K a)) * (v K * expFactor p K b)
  have h3 : ∀ K (j : Fin s.cells.length), (f' K : ℂ) * star (u K * expFactor (superPolar s p) K (at' i a)) *
      (v K * expFactor (superPolar s p) K (at' j b)) = ((f K : ℂ) / s.cells.length) *
    star (u K * (ex p.a (s.cells.getD i (0, 0, 0)) K * expFactor p K a)) * (v K * expFactor p K b) *
      ex p.a (s.cells.getD j (0, 0, 0)) K := by
    intro K j
    rw [hf, expFactor_super, expFactor_super]
    push_cast
    ring
  simp only [h3]
  rw [h1, ← List.sum_map_mul_left, ← List.sum_map_mul_left]
  congr 1
  apply List.map_congr_left
  intro K hK
  obtain ⟨m, rfl⟩ := mem_kList hK
  rw [ex_kv p hp]
  simp only [star_mul', star_star]
  field_simp

theorem zMass_super (p : Polar n) : zMass (superPolar s p) = tile (zMass p) := rfl

theorem qMass_super (p : Polar n) : qMass (superPolar s p) = (qMass p).map tile := by
  unfold qMass
  show (p.Q.map tile).map _ = _
  rcases p.Q with _ | Q <;> rfl

theorem fold_einsum (hD : detSpec N1 N2 N3 ≠ 0) (hs : Verif.Lattice.supercell N1 N2 N3 = some s) (p : Polar n) (hp : Dual p)
    {Gmax : ℝ} {G2d : Bool} (hc : Complete p Gmax G2d) (hc' : Complete (superPolar s p) Gmax G2d)
    (h2 : p.lr2d = true ∨ G2d = true → Plane N1 N2 N3) (q : Fin 3 → ℝ)
    (z : Fin n → Fin 3 → Fin 3 → ℝ) (qu : Option (Fin n → Fin 3 → Fin 3 → Fin 3 → ℝ)) (i : Fin s.cells.length) (a b : Fin n) (x y : Fin 3) :
    ∑ j : Fin s.cells.length, phase (s.cells.getD j (0, 0, 0)) q *
        einsumLR (generateLongRange (superPolar s p) (gList (superPolar s p) Gmax G2d) (tile z) (qu.map tile)
          (superK N1 N2 N3 q)) (at' i a, x) (at' j b, y) =
      phase (s.cells.getD i (0, 0, 0)) q * einsumLR (generateLongRange p (gList p Gmax G2d) z qu q) (a, x) (b, y) := by
  simp only [einsum_eq]
  have e1 : (superPolar s p).lr2d = p.lr2d := rfl
  have e2 : (superPolar s p).L = p.L := rfl
  have e3 : (superPolar s p).perp = p.perp := rfl
  rw [e1, e2, e3]
  simp only [mul_add, Finset.sum_add_distrib]
  have h3 := fold_pair hD hs p hp hc hc' h2 q (factor p) (factor (superPolar s p))
    (factor_super hD hs p hp fun h => h2 (Or.inl h)) (fun K => dotFactor p z qu K a x) (fun K => dotFactor p z qu K b y) i a b
  refine congrArg₂ (· + ·) ?_ ?_
  · have h4 : ∀ j : Fin s.cells.length, term (superPolar s p) (tile z) (qu.map tile) (at' i a, x) (at' j b, y) = fun K =>
        (factor (superPolar s p) K : ℂ) * star (dotFactor p z qu K a x * expFactor (superPolar s p) K (at' i a)) *
          (dotFactor p z qu K b y * expFactor (superPolar s p) K (at' j b)) := by
      intro j
      funext K
      unfold term
      dsimp only
      rw [dotFactor_super, dotFactor_super]
    simp only [h4]
    exact h3
  · cases h4 : p.lr2d
    · simp
    · rcases p.L with _ | l
      · simp
      · cases p.perp
        · simp
        · have h5 := fold_pair hD hs p hp hc hc' h2 q (factorPerp p l) (factorPerp (superPolar s p) l)
            (factorPerp_super hD hs p hp h4 (h2 (Or.inl h4)) l) (fun K => dotPerp p z qu K a x) (fun K => dotPerp p z qu K b y) i a b
          have h6 : ∀ j : Fin s.cells.length, termPerp (superPolar s p) l (tile z) (qu.map tile) (at' i a, x) (at' j b, y) = fun K =>
              (factorPerp (superPolar s p) l K : ℂ) * star (dotPerp p z qu K a x * expFactor (superPolar s p) K (at' i a)) *
                (dotPerp p z qu K b y * expFactor (superPolar s p) K (at' j b)) := by
            intro j
            funext K
            unfold termPerp
            dsimp only
            rw [dotPerp_super, dotPerp_super]
          simp only [h6]
          exact h5

/-- C157: the long-range part of the dynamical matrix of the supercell folds to that of the unit cell. -/
theorem C157_folding (hD : detSpec N1 N2 N3 ≠ 0) (hs : Verif.Lattice.supercell N1 N2 N3 = some s) (p : Polar n) (hp : Dual p)
    {Gmax : ℝ} {G2d : Bool} (hc : Complete p Gmax G2d) (hc' : Complete (superPolar s p) Gmax G2d)
    (h2 : p.lr2d = true ∨ G2d = true → Plane N1 N2 N3) (q : Fin 3 → ℝ) (i : Fin s.cells.length) (a b : Fin n) (x y : Fin 3) :
    ∑ j : Fin s.cells.length, phase (s.cells.getD j (0, 0, 0)) q *
        Dlr (superPolar s p) Gmax G2d (superK N1 N2 N3 q) (at' i a, x) (at' j b, y) =
      phase (s.cells.getD i (0, 0, 0)) q * Dlr p Gmax G2d q (a, x) (b, y) := by
  unfold Dlr
  simp only [mul_add, Finset.sum_add_distrib]
  rw [zMass_super, qMass_super]
  refine congrArg₂ (· + ·) ?_ (fold_einsum hD hs p hp hc hc' h2 q _ _ i a b x y)
  have h3 : ∀ na2, ∑ k : Fin s.cells.length, einsumLR (generateLongRange (superPolar s p) (gList (superPolar s p) Gmax G2d)
      (superPolar s p).Z (superPolar s p).Q fun _ => 0) (at' i a, x) (at' k na2, y) =
      einsumLR (generateLongRange p (gList p Gmax G2d) p.Z p.Q fun _ => 0) (a, x) (na2, y) := by
    intro na2
    have h4 := fold_einsum hD hs p hp hc hc' h2 (fun _ => 0) p.Z p.Q i a na2 x y
    have h5 : superK N1 N2 N3 (fun _ => (0 : ℝ)) = fun _ => 0 := by
      funext t
      unfold Verif.TB.superK
      fin_cases t <;> simp
    have h6 : ∀ c, phase c (fun _ => (0 : ℝ)) = 1 := fun c => by simp [phase]
    simp only [h5, h6, one_mul] at h4
    exact h4
  have h7 : ∀ j : Fin s.cells.length, D0lr (superPolar s p) (gList (superPolar s p) Gmax G2d) (at' i a, x) (at' j b, y) =
      if i = j then D0lr p (gList p Gmax G2d) (a, x) (b, y) else 0 := by
    intro j
    unfold D0lr
    dsimp only
    have h8 : (at' i a = at' j b) ↔ (i = j ∧ a = b) := by
      unfold at'
      rw [finProdFinEquiv.injective.eq_iff, Prod.mk.injEq]
    rw [← finProdFinEquiv.sum_comp, Fintype.sum_prod_type_right]
    have h9 : (superPolar s p).M (at' i a) = p.M a := tile_at _ _ _
    have h10 : (superPolar s p).divideMass = p.divideMass := rfl
    simp only [h8, h9, h10]
    have h11 : ∀ na2, ∑ k : Fin s.cells.length, einsumLR (generateLongRange (superPolar s p) (gList (superPolar s p) Gmax G2d)
      (superPolar s p).Z (superPolar s p).Q fun _ => 0) (at' i a, x) (finProdFinEquiv (k, na2), y) =
      einsumLR (generateLongRange p (gList p Gmax G2d) p.Z p.Q fun _ => 0) (a, x) (na2, y) := h3
    simp only [h11]
    by_cases h12 : i = j
    · simp [h12]
    · simp [h12]
  simp only [h7]
  simp

/-- C157: the same for the long-range electron-phonon coupling. -/
theorem C157_folding_elph (hD : detSpec N1 N2 N3 ≠ 0) (hs : Verif.Lattice.supercell N1 N2 N3 = some s) (p : Polar n) (hp : Dual p)
    {Gmax : ℝ} {G2d : Bool} (hc : Complete p Gmax G2d) (hc' : Complete (superPolar s p) Gmax G2d)
    (h2 : p.lr2d = true ∨ G2d = true → Plane N1 N2 N3) (q : Fin 3 → ℝ) (b : Fin n) (y : Fin 3) :
    ∑ j : Fin s.cells.length, phase (s.cells.getD j (0, 0, 0)) q *
        gLr (superPolar s p) (gList (superPolar s p) Gmax G2d) (zMass (superPolar s p)) (qMass (superPolar s p))
          (superK N1 N2 N3 q) (at' j b, y) =
      gLr p (gList p Gmax G2d) (zMass p) (qMass p) q (b, y) := by
  have hC : (s.cells.length : ℂ) ≠ 0 := by exact_mod_cast (supercell_spec hD hs).2.2.2.2
  simp only [gLr_eq]
  rw [zMass_super, qMass_super]
  have h1 := fold_list hD hs p hp hc hc' h2 q fun K => ((factor p K : ℂ) / s.cells.length) *
    (dotFactor p (zMass p) (qMass p) K b y * expFactor p K b)
  have h3 : ∀ K (j : Fin s.cells.length), (factor (superPolar s p) K : ℂ) *
      (dotFactor (superPolar s p) (tile (zMass p)) ((qMass p).map tile) K (at' j b) y * expFactor (superPolar s p) K (at' j b)) =
      ((factor p K : ℂ) / s.cells.length) * (dotFactor p (zMass p) (qMass p) K b y * expFactor p K b) *
        ex p.a (s.cells.getD j (0, 0, 0)) K := by
    intro K j
    rw [factor_super hD hs p hp fun h => h2 (Or.inl h), expFactor_super, dotFactor_super]
    push_cast
    ring
  simp only [h3]
  rw [h1, ← List.sum_map_mul_left]
  congr 1
  apply List.map_congr_left
  intro K hK
  field_simp

/-- C157: with short-range (C42) and long-range part, `D(q)` of the unit cell is a Bloch sum of `D` of the supercell. -/
theorem C157_dynamical_matrix (hD : detSpec N1 N2 N3 ≠ 0) (hs : Verif.Lattice.supercell N1 N2 N3 = some s) (p : Polar n)
    (hp : Dual p) {Gmax : ℝ} {G2d : Bool} (hc : Complete p Gmax G2d) (hc' : Complete (superPolar s p) Gmax G2d)
    (h2 : p.lr2d = true ∨ G2d = true → Plane N1 N2 N3) (l : Verif.TB.Blocks (Fin n × Fin 3) ℝ) (hnd : (l.map Prod.fst).Nodup)
    (m : Verif.TB.Blocks (Nat × Fin n × Fin 3) ℝ) (hm : Verif.TB.supercell s l = some m) (q : Fin 3 → ℝ)
    (i : Fin s.cells.length) (a b : Fin n × Fin 3) :
    ∑ j : Fin s.cells.length, phase (s.cells.getD j (0, 0, 0)) q *
        (Verif.TB.dynMat m (superK N1 N2 N3 q) (i, a) (j, b) +
          Dlr (superPolar s p) Gmax G2d (superK N1 N2 N3 q) (at' i a.1, a.2) (at' j b.1, b.2)) =
      phase (s.cells.getD i (0, 0, 0)) q * (Verif.TB.dynMat l q a b + Dlr p Gmax G2d q a b) := by
  simp only [mul_add, Finset.sum_add_distrib]
  refine congrArg₂ (· + ·) ?_ (C157_folding hD hs p hp hc hc' h2 q i a.1 b.1 a.2 b.2)
  have h1 := Verif.TB.C42_folding_ph N1 N2 N3 hD s hs l hnd m hm q i i.2 a b
  rw [← h1, Finset.sum_range]

/-- C157: phonon modes of the unit cell are phonon modes of the supercell with the same frequency, also with long-range
terms. -/
theorem C157_modes (hD : detSpec N1 N2 N3 ≠ 0) (hs : Verif.Lattice.supercell N1 N2 N3 = some s) (p : Polar n)
    (hp : Dual p) {Gmax : ℝ} {G2d : Bool} (hc : Complete p Gmax G2d) (hc' : Complete (superPolar s p) Gmax G2d)
    (h2 : p.lr2d = true ∨ G2d = true → Plane N1 N2 N3) (l : Verif.TB.Blocks (Fin n × Fin 3) ℝ) (hnd : (l.map Prod.fst).Nodup)
    (m : Verif.TB.Blocks (Nat × Fin n × Fin 3) ℝ) (hm : Verif.TB.supercell s l = some m) (q : Fin 3 → ℝ)
    (v : Fin n × Fin 3 → ℂ) (w2 : ℂ) (hv : ∀ a, ∑ b, (Verif.TB.dynMat l q a b + Dlr p Gmax G2d q a b) * v b = w2 * v a)
    (i : Fin s.cells.length) (a : Fin n × Fin 3) :
    ∑ j : Fin s.cells.length, ∑ b : Fin n × Fin 3, (Verif.TB.dynMat m (superK N1 N2 N3 q) (i, a) (j, b) +
          Dlr (superPolar s p) Gmax G2d (superK N1 N2 N3 q) (at' i a.1, a.2) (at' j b.1, b.2)) *
        (phase (s.cells.getD j (0, 0, 0)) q * v b) =
      w2 * (phase (s.cells.getD i (0, 0, 0)) q * v a) := by
  rw [Finset.sum_comm]
  have h3 : ∀ b : Fin n × Fin 3, ∑ j : Fin s.cells.length, (Verif.TB.dynMat m (superK N1 N2 N3 q) (i, a) (j, b) +
      Dlr (superPolar s p) Gmax G2d (superK N1 N2 N3 q) (at' i a.1, a.2) (at' j b.1, b.2)) *
        (phase (s.cells.getD j (0, 0, 0)) q * v b) =
      phase (s.cells.getD i (0, 0, 0)) q * ((Verif.TB.dynMat l q a b + Dlr p Gmax G2d q a b) * v b) := by
    intro b
    rw [← mul_assoc, ← C157_dynamical_matrix hD hs p hp hc hc' h2 l hnd m hm q i a b, Finset.sum_mul]
    exact Finset.sum_congr rfl fun j _ => by ring
  simp only [h3]
  rw [← Finset.mul_sum, hv]
  ring

/-! ### Orthogonal cells -/

theorem dual_orthogonal {a b : Fin 3 → Fin 3 → ℝ} (h : ∀ i j, dot3 (a i) (b j) = if i = j then 1 else 0)
    (ho : ∀ i j, i ≠ j → dot3 (a i) (a j) = 0) (i : Fin 3) : norm3 (a i) * norm3 (b i) ≤ 1 := by
  have hsq : ∀ v, norm3 v ^ 2 = dot3 v v := by
    intro v
    unfold norm3 dot3
    rw [Real.sq_sqrt (Finset.sum_nonneg fun x _ => sq_nonneg _)]
    exact Finset.sum_congr rfl fun x _ => by ring
  have hcomm : ∀ u v, dot3 u v = dot3 v u := by
    intro u v
    unfold dot3
    exact Finset.sum_congr rfl fun x _ => by ring
  have h1 : a i = fun x => dot3 (a i) (a i) * b i x := by
    have h2 := dot_lin h (a i)
    rw [← h2]
    have h3 : (fun j => dot3 (a i) (a j)) = fun j => if j = i then dot3 (a i) (a i) else 0 := by
      funext j
      by_cases h4 : j = i
      · rw [if_pos h4, h4]
      · rw [if_neg h4, ho i j (Ne.symm h4)]
    rw [h3]
    rw [show lin b (fun j => if j = i then dot3 (a i) (a i) else 0) = fun x => dot3 (a i) (a i) * b i x by
      funext x
      unfold lin
      fin_cases i <;> simp]
    funext x
    congr 1
    rw [← show a i = fun x => dot3 (a i) (a i) * b i x by
      rw [← show lin b (fun j => dot3 (a i) (a j)) = fun x => dot3 (a i) (a i) * b i x by
        rw [h3]
        funext x
        unfold lin
        fin_cases i <;> simp]
      exact h2.symm]
  have h0 : 0 ≤ dot3 (a i) (a i) := by
    rw [← hsq]
    positivity
  have h2 : norm3 (a i) = dot3 (a i) (a i) * norm3 (b i) := by
    conv_lhs => rw [h1]
    exact norm3_smul _ h0 _
  have h3 : dot3 (a i) (b i) = dot3 (a i) (a i) * norm3 (b i) ^ 2 := by
    rw [hsq]
    conv_lhs => rw [h1]
    unfold dot3
    rw [Finset.mul_sum]
    exact Finset.sum_congr rfl fun x _ => by ring
  rw [h i i, if_pos rfl] at h3
  rw [h2]
  linarith [h3, sq (norm3 (b i)), mul_assoc (dot3 (a i) (a i)) (norm3 (b i)) (norm3 (b i))]

/-- No reciprocal lattice vectors are missed for orthogonal cells. -/
theorem complete_orthogonal (p : Polar n) (hp : Dual p) (ho : ∀ i j, i ≠ j → dot3 (p.a i) (p.a j) = 0)
    (heps : ∀ K : Fin 3 → ℝ, ∑ x, K x ^ 2 ≤ ∑ x, ∑ y, K x * p.eps x y * K y) (Gmax : ℝ) (G2d : Bool) : Complete p Gmax G2d :=
  fun m h2 hm => C80_complete_partial p hp (dual_orthogonal hp ho) heps Gmax G2d m h2 hm

/-- C157: for orthogonal primitive vectors and multiples of them, no further assumption is needed. -/
theorem C157_orthogonal (k1 k2 k3 : Int) (h1 : k1 ≠ 0) (h2 : k2 ≠ 0) (h3 : k3 ≠ 0)
    (hs : Verif.Lattice.supercell (k1, 0, 0) (0, k2, 0) (0, 0, k3) = some s) (p : Polar n)
    (hp : Dual p) (ho : ∀ i j, i ≠ j → dot3 (p.a i) (p.a j) = 0)
    (heps : ∀ K : Fin 3 → ℝ, ∑ x, K x ^ 2 ≤ ∑ x, ∑ y, K x * p.eps x y * K y) (Gmax : ℝ) (G2d : Bool)
    (h4 : p.lr2d = true ∨ G2d = true → k3 = 1) (q : Fin 3 → ℝ) (i : Fin s.cells.length) (a b : Fin n) (x y : Fin 3) :
    ∑ j : Fin s.cells.length, phase (s.cells.getD j (0, 0, 0)) q *
        Dlr (superPolar s p) Gmax G2d (fun x => ![k1 * q 0, k2 * q 1, k3 * q 2] x) (at' i a, x) (at' j b, y) =
      phase (s.cells.getD i (0, 0, 0)) q * Dlr p Gmax G2d q (a, x) (b, y) := by
  have hD : detSpec (k1, 0, 0) (0, k2, 0) (0, 0, k3) ≠ 0 := by
    unfold detSpec
    simp [h1, h2, h3]
  obtain ⟨e1, e2, e3, _⟩ := supercell_spec hD hs
  have ho' : ∀ i j, i ≠ j → dot3 ((superPolar s p).a i) ((superPolar s p).a j) = 0 := by
    intro i j hij
    show dot3 (superA s p.a i) (superA s p.a j) = 0
    have h5 : ∀ t, superA s p.a t = fun x => (![(k1 : ℝ), k2, k3] t) * p.a t x := by
      intro t
      funext x
      unfold superA
      rw [e1, e2, e3]
      fin_cases t <;> simp
    rw [h5, h5]
    have h6 := ho i j hij
    unfold dot3 at h6 ⊢
    calc _ = (![(k1 : ℝ), k2, k3] i) * (![(k1 : ℝ), k2, k3] j) * ∑ x, p.a i x * p.a j x := by
          rw [Finset.mul_sum]
          exact Finset.sum_congr rfl fun x _ => by ring
      _ = 0 := by rw [h6, mul_zero]
  have h7 := C157_folding hD hs p hp (complete_orthogonal p hp ho heps Gmax G2d)
    (complete_orthogonal (superPolar s p) (super_dual hD hs p hp) ho' heps Gmax G2d)
    (fun h => by rw [h4 h]; exact ⟨rfl, rfl, rfl⟩) q i a b x y
  have h8 : superK (k1, 0, 0) (0, k2, 0) (0, 0, k3) q = fun x => ![k1 * q 0, k2 * q 1, k3 * q 2] x := by
    funext t
    unfold Verif.TB.superK
    fin_cases t <;> simp
  rw [h8] at h7
  exact h7

end

/-! ### Skewed cells -/

theorem skew_dual : Dual skewExample := by
  have h := Real.pi_pos.ne'
  intro i j
  unfold dot3
  rw [Fin.sum_univ_three]
  fin_cases i <;> fin_cases j <;> simp [skewExample] <;> field_simp

theorem skew_orth (i j : Fin 3) (hij : i ≠ j) : dot3 (skewExample.a i) (skewExample.a j) = 0 := by
  unfold dot3
  rw [Fin.sum_univ_three]
  fin_cases i <;> fin_cases j <;> simp_all [skewExample]

theorem skew_eps (K : Fin 3 → ℝ) : ∑ x, K x ^ 2 ≤ ∑ x, ∑ y, K x * skewExample.eps x y * K y := by
  apply le_of_eq
  simp [skewExample, Fin.sum_univ_three]
  ring

/-- A polar crystal with three atoms in cubic cells of volume `(2 π)³`. -/
example (s : Supercell) (hs : Verif.Lattice.supercell (2, 0, 0) (0, 3, 0) (0, 0, -1) = some s) (q : Fin 3 → ℝ)
    (i : Fin s.cells.length) (a b x y : Fin 3) :
    ∑ j : Fin s.cells.length, phase (s.cells.getD j (0, 0, 0)) q *
        Dlr (superPolar s skewExample) 28 false (fun x => ![((2 : Int) : ℝ) * q 0, ((3 : Int) : ℝ) * q 1, ((-1 : Int) : ℝ) * q 2] x)
          (at' i a, x) (at' j b, y) =
      phase (s.cells.getD i (0, 0, 0)) q * Dlr skewExample 28 false q (a, x) (b, y) :=
  C157_orthogonal 2 3 (-1) (by decide) (by decide) (by decide) hs skewExample skew_dual skew_orth skew_eps 28 false (by simp [skewExample])
    q i a b x y

/-- C157: as reciprocal lattice vectors are missed for skewed cells (C80), the dynamical matrix of a supercell differs from that
of the unit cell in general, here for a mere change of the primitive vectors to `a1`, `a2 + 5 a1`, `a3`. -/
theorem C157_violated : ∃ s, Verif.Lattice.supercell (1, 0, 0) (5, 1, 0) (0, 0, 1) = some s ∧ s.cells.length = 1 ∧
    (∀ i j : Fin s.cells.length, Dlr (superPolar s skewExample) 28 false (fun _ => 0) (at' i 0, 0) (at' j 1, 1) = 0) ∧
    Dlr skewExample 28 false (fun _ => 0) (0, 0) (1, 1) ≠ 0 := by
  have hD : detSpec (1, 0, 0) (5, 1, 0) (0, 0, 1) ≠ 0 := by decide
  obtain ⟨s, hs, _⟩ := Verif.Lattice.C17_supercell (1, 0, 0) (5, 1, 0) (0, 0, 1) hD
  have hlen : s.cells.length = 1 := by
    obtain ⟨_, _, _, h4, _⟩ := supercell_spec hD hs
    have h5 : (s.cells.length : ℝ) = ((1 : Nat) : ℝ) := by
      rw [h4]
      unfold detSpec
      norm_num
    exact_mod_cast h5
  have hzm : ∀ p : Polar 3, p.divideMass = false → zMass p = p.Z := by
    intro p h
    funext a e u
    unfold zMass
    rw [h]
    rfl
  refine ⟨s, hs, hlen, ?_, ?_⟩
  · intro i j
    have hg : ∀ m : V3, gVec (superPolar s skewExample) m = ![(m.1 : ℝ), (m.2.1 : ℝ) - 5 * m.1, (m.2.2 : ℝ)] := by
      intro m
      have h1 := gVec_super hD hs skewExample skew_dual (m.1, m.2.1 - 5 * m.1, m.2.2)
      have h2 : mulN (1, 0, 0) (5, 1, 0) (0, 0, 1) (m.1, m.2.1 - 5 * m.1, m.2.2) = m := by
        simp [mulN]
      rw [h2, skew_gVec] at h1
      rw [h1]
      simp
    have hsc : scale (superPolar s skewExample) * 28 = 3 / 2 := by rw [scale_super hD hs skewExample skew_dual, skew_scale]
    have hnr : nr (superPolar s skewExample) 28 false 1 = 2 := by
      unfold nr
      have e1 : (fun x => 2 * Real.pi * (superPolar s skewExample).b 1 x) = ![0, 1, 0] := by
        have h1 := hg (0, 1, 0)
        rw [show (![((0 : Int) : ℝ), ((1 : Int) : ℝ) - 5 * ((0 : Int) : ℝ), ((0 : Int) : ℝ)]) = ![0, 1, 0] by simp] at h1
        rw [← h1]
        funext x
        simp [gVec]
      have e2 : norm3 ![(0 : ℝ), 1, 0] = 1 := by
        unfold norm3
        simp [Fin.sum_univ_three]
      rw [hsc, e1, e2, div_one]
      have h1 : ⌊Real.sqrt (3 / 2)⌋₊ = 1 := by
        rw [Nat.floor_eq_iff (Real.sqrt_nonneg _)]
        constructor
        · rw [Nat.cast_one]
          exact Real.one_le_sqrt.2 (by norm_num)
        · rw [Real.sqrt_lt' (by norm_num)]
          norm_num
      rw [h1]
      simp
    have hG : ∀ G ∈ gList (superPolar s skewExample) 28 false, G 0 = 0 := by
      intro G hG
      unfold gList at hG
      obtain ⟨m, hm, rfl⟩ := List.mem_map.1 hG
      rw [List.mem_filter, mem_box, hnr] at hm
      obtain ⟨⟨_, hm1, _⟩, hm2⟩ := hm
      have hm3 := of_decide_eq_true hm2
      rw [hsc, keK_super, skew_keK, hg] at hm3
      rw [hg]
      simp at hm3 ⊢
      by_contra h0
      push_cast at hm1
      have h1 : (3 : Int) ≤ |m.2.1 - 5 * m.1| := by
        rcases abs_cases (m.2.1 - 5 * m.1) with h | h <;> omega
      have h2 : (9 : Int) ≤ (m.2.1 - 5 * m.1) ^ 2 := by
        rw [← sq_abs]
        nlinarith
      have h3 : ((9 : Int) : ℝ) ≤ (((m.2.1 - 5 * m.1) ^ 2 : Int) : ℝ) := by exact_mod_cast h2
      push_cast at h3
      nlinarith [sq_nonneg (m.1 : ℝ), sq_nonneg (m.2.2 : ℝ)]
    unfold Dlr
    dsimp only
    have h0 : D0lr (superPolar s skewExample) (gList (superPolar s skewExample) 28 false) (at' i 0, 0) (at' j 1, 1) = 0 := by
      unfold D0lr
      rw [if_neg]
      intro h
      have h1 := finProdFinEquiv.injective h
      simp at h1
    rw [h0, zero_add, einsum_eq]
    refine (add_zero _).trans ?_
    apply List.sum_eq_zero
    intro t ht
    obtain ⟨K, hK, rfl⟩ := List.mem_map.1 ht
    have hK0 : K 0 = 0 := by
      unfold kList at hK
      obtain ⟨g, hg, rfl⟩ := List.mem_map.1 (List.mem_filter.1 hK).1
      simp [hG g hg]
    unfold term
    have h3 : dotFactor (superPolar s skewExample) (zMass (superPolar s skewExample)) (qMass (superPolar s skewExample)) K (at' i 0) 0 = 0 := by
      rw [zMass_super, qMass_super, dotFactor_super, hzm _ rfl]
      simp [dotFactor, skewExample, qMass, Fin.sum_univ_three, hK0]
    dsimp only
    rw [h3]
    simp
  · unfold Dlr
    dsimp only
    rw [hzm _ rfl, show qMass skewExample = skewExample.Q from rfl, skew_einsum]
    unfold D0lr
    rw [if_neg (by decide), zero_add]
    have h1 : factor skewExample ![1, 0, 0] ≠ 0 := by
      have e1 : factor skewExample ![1, 0, 0] = prefactor skewExample *
        Real.exp (-keK skewExample ![1, 0, 0] / scale skewExample) / keK skewExample ![1, 0, 0] := rfl
      have e2 : keK skewExample ![1, 0, 0] = 1 := by
        rw [skew_keK]
        simp
      have e3 : prefactor skewExample ≠ 0 := by
        have h4 := triple_ne (a := skewExample.a) (b := skewExample.b) skew_dual
        have e4 : prefactor skewExample = 4 * Real.pi * 2 / |triple skewExample.a| := by
          unfold prefactor triple Verif.Bravais.dot3
          rw [if_neg (by simp [skewExample]), Fin.sum_univ_three]
        rw [e4]
        have := Real.pi_pos
        positivity
      rw [e1, e2]
      have := Real.exp_pos (-1 / scale skewExample)
      simp [e3]
    refine mul_ne_zero (by exact_mod_cast h1) ?_
    norm_cast
    simp [skewExample]

end Verif.Phon.Super
