import Verif.Plot.Outline
import Verif.Voronoi.Model
import Mathlib.Algebra.BigOperators.Fin

/-!
# Model of `elphmod/plot.py` 23-179: plots in Cartesian reciprocal coordinates

`plot` and `double_plot` with `linear_interpolation` (the default) in exact arithmetic. Progress bars and the switches
`broadcast` and `return_k`, which do not affect the image on the first process, are left out.
-/

namespace Verif.Plot

open Verif.Bravais Verif.Interp Verif.Diag

variable {V : Type} [AddCommGroup V] [Module ℝ V]

/-! ### Pixels -/

/-- `elphmod/plot.py` 30-31, 90-91: number of pixels, none if `np.linspace` fails. -/
noncomputable def npix (resolution lo hi : ℝ) : Option Nat :=
  let n := roundEven (resolution * (hi - lo))
  if n < 0 then none else some n.toNat

/-- `elphmod/plot.py` 34-38, 94-98: `np.linspace(lo, hi, n, endpoint=False)` plus half a step. -/
noncomputable def lin1 (lo hi : ℝ) (n j : Nat) : ℝ := (lo + j * ((hi - lo) / n)) + (hi - lo) / n / 2

/-- `elphmod/plot.py` 33-40, 53-54, 93-100, 111-112: point in row `i` and column `j` (`ky` reversed). -/
noncomputable def center (kxmin kxmax kymin kymax : ℝ) (nkx nky i j : Nat) : R2 :=
  ![lin1 kxmin kxmax nkx j, lin1 kymin kymax nky (nky - 1 - i)]

/-- `elphmod/plot.py` 44, 102: lattice vectors. -/
noncomputable def planeA (angle : Angle) : R2 × R2 := translations (180 - degrees angle) 0

/-- `elphmod/plot.py` 56-59: value of one pixel. -/
noncomputable def plotPixel (angle : Angle) (mesh : Int → Int → V) (nk : Nat) (k : R2) : V :=
  let k1 := k 0 * (planeA angle).1 0 + k 1 * (planeA angle).1 1
  let k2 := k 0 * (planeA angle).2 0 + k 1 * (planeA angle).2 1
  interp2 angle noStk mesh nk nk (k1 * nk) (k2 * nk)

/-- `elphmod/plot.py` 23-76 (`plot`) on `procs` processes: shape and flat image. -/
noncomputable def plot (procs : Nat) (angle : Angle) (mesh : Int → Int → V) (nk : Nat)
    (kxmin kxmax kymin kymax resolution : ℝ) : Option (Nat × Nat × List V) :=
  (npix resolution kxmin kxmax).bind fun nkx => (npix resolution kymin kymax).bind fun nky =>
    (Verif.MPI.parMap procs (fun m => plotPixel angle mesh nk (center kxmin kxmax kymin kymax nkx nky (m / nkx) (m % nkx)))
      (List.range (nky * nkx))).map fun image => (nky, nkx, image)

/-! ### Double plot -/

/-- The angle in the module on Voronoi cells. -/
def toV : Angle → Verif.Voronoi.Angle
  | .a60 => .a60
  | .a90 => .a90
  | .a120 => .a120

/-- Python's `min` with key: the first smallest element. -/
noncomputable def minBy {α : Type} (f : α → ℝ) : α → List α → α
  | a, [] => a
  | a, b :: l => minBy f (if f b < f a then b else a) l

/-- `elphmod/plot.py` 117-123: nearest of four neighbors. -/
noncomputable def nearest (angle : Angle) (q1 q2 : ℝ) : ℤ × ℤ :=
  minBy (fun q : ℤ × ℤ => Verif.Voronoi.sqDist (toV angle) (q.1 - q1) (q.2 - q2)) (⌊q1⌋, ⌊q2⌋)
    [(⌊q1⌋, ⌊q2⌋ + 1), (⌊q1⌋ + 1, ⌊q2⌋), (⌊q1⌋ + 1, ⌊q2⌋ + 1)]

/-- `elphmod/plot.py` 85: indices of a q point. -/
noncomputable def qInt (nq : Nat) (q : ℝ × ℝ) : ℤ × ℤ :=
  (roundEven (q.1 / (2 * Real.pi) * nq), roundEven (q.2 / (2 * Real.pi) * nq))

/-- `elphmod/plot.py` 111-128: value of one pixel. The dictionary `fun` contains the last of several entries (87-88). -/
noncomputable def doublePixel (angle : Angle) (data : List ((ℝ × ℝ) × (Int → Int → V))) (nk nq : Nat) (outside : V) (q : R2) : V :=
  let q1 := (q 0 * (planeA angle).1 0 + q 1 * (planeA angle).1 1) * nq
  let q2 := (q 0 * (planeA angle).2 0 + q 1 * (planeA angle).2 1) * nq
  match data.reverse.find? fun e => qInt nq e.1 = nearest angle q1 q2 with
  | some e => interp2 angle noStk e.2 nk nk (q1 * nk) (q2 * nk)
  | none => outside

/-- `elphmod/plot.py` 78-142 (`double_plot`) on `procs` processes: shape and flat image. -/
noncomputable def doublePlot (procs : Nat) (angle : Angle) (data : List ((ℝ × ℝ) × (Int → Int → V))) (nk nq : Nat)
    (qxmin qxmax qymin qymax resolution : ℝ) (outside : V) : Option (Nat × Nat × List V) :=
  (npix resolution qxmin qxmax).bind fun nqx => (npix resolution qymin qymax).bind fun nqy =>
    (Verif.MPI.parMap procs (fun m => doublePixel angle data nk nq outside (center qxmin qxmax qymin qymax nqx nqy (m / nqx) (m % nqx)))
      (List.range (nqy * nqx))).map fun image => (nqy, nqx, image)

/-- `elphmod/plot.py` 144-176: outline of one small Brillouin zone. -/
noncomputable def miniBZ (angle : Angle) (nq : Nat) (q : ℤ × ℤ) : List R2 :=
  let b := reciprocals2 (planeA angle).1 (planeA angle).2
  let qc : R2 := (q.1 : ℝ) • b.1 + (q.2 : ℝ) • b.2
  let h : ℝ := 1 / √3
  let a : ℝ := 1 / 3
  (match angle with
  | .a90 => [![qc 0 + 0.5, qc 1 - 0.5], ![qc 0 + 0.5, qc 1 + 0.5], ![qc 0 - 0.5, qc 1 + 0.5], ![qc 0 - 0.5, qc 1 - 0.5],
      ![qc 0 + 0.5, qc 1 - 0.5]]
  | _ => [![qc 0 + a * 2, qc 1], ![qc 0 + a, qc 1 + h], ![qc 0 - a, qc 1 + h], ![qc 0 - a * 2, qc 1],
      ![qc 0 - a, qc 1 - h], ![qc 0 + a, qc 1 - h], ![qc 0 + a * 2, qc 1]]).map fun k : R2 => fun x => k x / nq

/-! ### Specification -/

/-- Reciprocal lattice vectors at the given angle: dual to unit vectors at the supplementary angle. -/
noncomputable def planeB (angle : Angle) : R2 × R2 := reciprocals2 (planeA angle).1 (planeA angle).2

/-- Function with the periodicity of the reciprocal lattice. -/
def Periodic2 (b1 b2 : R2) (F : R2 → V) : Prop := ∀ (k : R2) (m n : ℤ), F (k + (m : ℝ) • b1 + (n : ℝ) • b2) = F k

/-- Values on the uniform mesh of `nk` times `nk` points. -/
def Samples (b1 b2 : R2) (nk : Nat) (F : R2 → V) (mesh : Int → Int → V) : Prop :=
  ∀ i j : ℤ, 0 ≤ i → i < nk → 0 ≤ j → j < nk → mesh i j = F (((i : ℝ) / nk) • b1 + ((j : ℝ) / nk) • b2)

/-- `z` is an average of values of `F` at four mesh points with the center of mass `k`. The squares of the distances of the
points that contribute are at most `D` times that of neighboring mesh points. -/
def Shows (b1 b2 : R2) (nk : Nat) (F : R2 → V) (D : ℝ) (k : R2) (z : V) : Prop :=
  ∃ (w : Fin 4 → ℝ) (x : Fin 4 → R2), (∀ l, 0 ≤ w l) ∧ ∑ l, w l = 1 ∧
    (∀ l, ∃ i j : ℤ, x l = ((i : ℝ) / nk) • b1 + ((j : ℝ) / nk) • b2) ∧ ∑ l, w l • x l = k ∧
    (∀ l, w l ≠ 0 → (nk : ℝ) ^ 2 * dot2 (x l - k) (x l - k) ≤ D * dot2 b1 b1) ∧ z = ∑ l, w l • F (x l)

/-- One for triangles, two for squares. -/
def maxSq : Angle → ℝ
  | .a90 => 2
  | _ => 1

/-! ### Geometry -/

/-- Supplementary angle. -/
def compl : Angle → Angle
  | .a60 => .a120
  | .a90 => .a90
  | .a120 => .a60

theorem planeA_eq (angle : Angle) : planeA angle = translations (degrees (compl angle)) 0 := by
  unfold planeA
  congr 1
  cases angle <;> norm_num [degrees, compl]

theorem plane_cell (angle : Angle) : (planeA angle).1 = (bzCell (compl angle) 0).a1 ∧ (planeA angle).2 = (bzCell (compl angle) 0).a2 ∧
    (planeB angle).1 = (bzCell (compl angle) 0).b1 ∧ (planeB angle).2 = (bzCell (compl angle) 0).b2 := by
  obtain ⟨h1, h2, h3, h4⟩ := bz_b (compl angle) 0
  unfold planeB
  rw [planeA_eq, h1, h2, h3, h4]
  exact ⟨rfl, rfl, rfl, rfl⟩

/-- Square of the length of the reciprocal lattice vectors. -/
noncomputable def bsq : Angle → ℝ
  | .a90 => 1
  | _ => 4 / 3

theorem plane_gram (angle : Angle) : dot2 (planeB angle).1 (planeB angle).1 = bsq angle ∧
    dot2 (planeB angle).2 (planeB angle).2 = bsq angle ∧
    dot2 (planeB angle).1 (planeB angle).2 = bsq angle * ((toV angle).sgn : ℝ) / 2 := by
  obtain ⟨-, -, h3, h4⟩ := plane_cell angle
  obtain ⟨g1, g2, g3, -⟩ := gram (compl angle) 0
  rw [h3, h4, g1, g2, g3]
  cases angle <;> norm_num [compl, bzCell, bsq, toV, Verif.Voronoi.Angle.sgn]

theorem plane_expand (angle : Angle) (k : R2) :
    k = dot2 k (planeA angle).1 • (planeB angle).1 + dot2 k (planeA angle).2 • (planeB angle).2 := by
  obtain ⟨h1, h2, h3, h4⟩ := plane_cell angle
  rw [h1, h2, h3, h4]
  exact expand (compl angle) 0 k

theorem plane_dual (angle : Angle) : dot2 (planeA angle).1 (planeB angle).1 = 1 ∧ dot2 (planeA angle).1 (planeB angle).2 = 0 ∧
    dot2 (planeA angle).2 (planeB angle).1 = 0 ∧ dot2 (planeA angle).2 (planeB angle).2 = 1 := by
  obtain ⟨h1, h2, h3, h4⟩ := plane_cell angle
  rw [h1, h2, h3, h4]
  exact (gram (compl angle) 0).2.2.2

/-- Squares of lengths. -/
theorem plane_sq (angle : Angle) (x y : ℝ) :
    dot2 (x • (planeB angle).1 + y • (planeB angle).2) (x • (planeB angle).1 + y • (planeB angle).2) =
      bsq angle * Verif.Voronoi.sqDist (toV angle) x y := by
  obtain ⟨g1, g2, g3⟩ := plane_gram angle
  unfold Verif.Voronoi.sqDist
  unfold dot2 at *
  simp only [Pi.add_apply, Pi.smul_apply, smul_eq_mul]
  linear_combination x * x * g1 + y * y * g2 + 2 * x * y * g3

theorem bsq_pos (angle : Angle) : 0 < bsq angle := by cases angle <;> norm_num [bsq]

/-! ### Interpolation -/

/-- Crystal coordinates of the four corners. -/
def corner (l : Fin 4) : ℤ × ℤ := ![(0, 0), (1, 0), (0, 1), (1, 1)] l

theorem cellSpec (angle : Angle) (mesh : Int → Int → V) (N : Int) (i j : ℤ) (u v : ℝ) (hu0 : 0 ≤ u) (hu1 : u ≤ 1) (hv0 : 0 ≤ v)
    (hv1 : v ≤ 1) : ∃ w : Fin 4 → ℝ, (∀ l, 0 ≤ w l) ∧ ∑ l, w l = 1 ∧ ∑ l, w l * ((corner l).1 : ℝ) = u ∧
      ∑ l, w l * ((corner l).2 : ℝ) = v ∧
      (∀ l, w l ≠ 0 → Verif.Voronoi.sqDist (toV angle) ((corner l).1 - u) ((corner l).2 - v) ≤ maxSq angle) ∧
      interp2 angle noStk mesh N N ((i : ℝ) + u) ((j : ℝ) + v) =
        ∑ l, w l • ext mesh N N (i + (corner l).1) (j + (corner l).2) := by
  cases angle
  · obtain ⟨h1, h2⟩ := cell60 mesh N N i j u v hu0 hu1 hv0 hv1
    rcases le_total (u + v) 1 with h | h
    · refine ⟨![1 - u - v, u, v, 0], ?_, ?_, ?_, ?_, ?_, ?_⟩
      · intro l; fin_cases l <;> simp <;> linarith
      · simp [Fin.sum_univ_four]; ring
      · simp [Fin.sum_univ_four, corner]
      · simp [Fin.sum_univ_four, corner]
      · intro l hl
        fin_cases l <;> simp [corner, toV, Verif.Voronoi.sqDist, Verif.Voronoi.Angle.sgn, maxSq] at hl ⊢ <;> nlinarith
      · simp only [interp2]
        rw [h1 h]
        simp [Fin.sum_univ_four, corner]
        module
    · refine ⟨![0, 1 - v, 1 - u, u + v - 1], ?_, ?_, ?_, ?_, ?_, ?_⟩
      · intro l; fin_cases l <;> simp <;> linarith
      · simp [Fin.sum_univ_four]; ring
      · simp [Fin.sum_univ_four, corner]
      · simp [Fin.sum_univ_four, corner]
      · intro l hl
        fin_cases l <;> simp [corner, toV, Verif.Voronoi.sqDist, Verif.Voronoi.Angle.sgn, maxSq] at hl ⊢ <;> nlinarith
      · simp only [interp2]
        rw [h2 h]
        simp [Fin.sum_univ_four, corner]
  · refine ⟨![(1 - u) * (1 - v), u * (1 - v), (1 - u) * v, u * v], ?_, ?_, ?_, ?_, ?_, ?_⟩
    · intro l; fin_cases l <;> simp <;> nlinarith
    · simp [Fin.sum_univ_four]; ring
    · simp [Fin.sum_univ_four, corner]; ring
    · simp [Fin.sum_univ_four, corner]; ring
    · intro l hl
      fin_cases l <;> simp [corner, toV, Verif.Voronoi.sqDist, Verif.Voronoi.Angle.sgn, maxSq] <;> nlinarith
    · simp only [interp2]
      rw [cell90 mesh N N i j u v hu0 hu1 hv0 hv1]
      simp [Fin.sum_univ_four, corner]
      module
  · obtain ⟨h1, h2⟩ := cell120 mesh N N i j u v hu0 hu1 hv0 hv1
    rcases le_total v u with h | h
    · refine ⟨![1 - u, u - v, 0, v], ?_, ?_, ?_, ?_, ?_, ?_⟩
      · intro l; fin_cases l <;> simp <;> linarith
      · simp [Fin.sum_univ_four]
      · simp [Fin.sum_univ_four, corner]
      · simp [Fin.sum_univ_four, corner]
      · intro l hl
        fin_cases l <;> simp [corner, toV, Verif.Voronoi.sqDist, Verif.Voronoi.Angle.sgn, maxSq] at hl ⊢ <;> nlinarith
      · simp only [interp2]
        rw [h1 h]
        simp [Fin.sum_univ_four, corner]
        module
    · refine ⟨![1 - v, 0, v - u, u], ?_, ?_, ?_, ?_, ?_, ?_⟩
      · intro l; fin_cases l <;> simp <;> linarith
      · simp [Fin.sum_univ_four]
      · simp [Fin.sum_univ_four, corner]
      · simp [Fin.sum_univ_four, corner]
      · intro l hl
        fin_cases l <;> simp [corner, toV, Verif.Voronoi.sqDist, Verif.Voronoi.Angle.sgn, maxSq] at hl ⊢ <;> nlinarith
      · simp only [interp2]
        rw [h2 h]
        simp [Fin.sum_univ_four, corner]
        module

/-- Data on the mesh, periodically continued. -/
theorem ext_samples {b1 b2 : R2} {nk : Nat} (hn : 0 < nk) {F : R2 → V} (hF : Periodic2 b1 b2 F) {mesh : Int → Int → V}
    (hm : Samples b1 b2 nk F mesh) (i j : ℤ) :
    ext mesh nk nk i j = F (((i : ℝ) / nk) • b1 + ((j : ℝ) / nk) • b2) := by
  have hz : (nk : ℤ) ≠ 0 := by omega
  have hz' : (nk : ℝ) ≠ 0 := by exact_mod_cast hz
  unfold ext
  rw [hm _ _ (Int.emod_nonneg _ hz) (Int.emod_lt_of_pos _ (by omega)) (Int.emod_nonneg _ hz) (Int.emod_lt_of_pos _ (by omega))]
  rw [← hF _ (i / nk) (j / nk)]
  congr 1
  have e : ∀ i : ℤ, (i : ℝ) / nk = ((i % nk : ℤ) : ℝ) / nk + ((i / nk : ℤ) : ℝ) := by
    intro i
    have := Int.emod_add_mul_ediv i nk
    have h2 : (i : ℝ) = ((i % nk : ℤ) : ℝ) + nk * ((i / nk : ℤ) : ℝ) := by exact_mod_cast this.symm
    rw [h2]
    field_simp
  rw [e i, e j]
  module

/-- Linear interpolation of samples in Cartesian coordinates. -/
theorem shows_interp (angle : Angle) {nk : Nat} (hn : 0 < nk) {F : R2 → V}
    (hF : Periodic2 (planeB angle).1 (planeB angle).2 F) {mesh : Int → Int → V}
    (hm : Samples (planeB angle).1 (planeB angle).2 nk F mesh) (k : R2) :
    Shows (planeB angle).1 (planeB angle).2 nk F (maxSq angle) k
      (interp2 angle noStk mesh nk nk (dot2 k (planeA angle).1 * nk) (dot2 k (planeA angle).2 * nk)) := by
  have hz : (nk : ℝ) ≠ 0 := by exact_mod_cast hn.ne'
  have he := plane_expand angle k
  generalize dot2 k (planeA angle).1 = p at he ⊢
  generalize dot2 k (planeA angle).2 = r at he ⊢
  set b1 := (planeB angle).1 with hb1
  set b2 := (planeB angle).2 with hb2
  have hi := Int.floor_add_fract (p * nk)
  have hj := Int.floor_add_fract (r * nk)
  set i := ⌊p * nk⌋
  set j := ⌊r * nk⌋
  set u := Int.fract (p * nk)
  set v := Int.fract (r * nk)
  obtain ⟨w, w0, w1, wu, wv, wd, we⟩ := cellSpec angle mesh nk i j u v (Int.fract_nonneg _) (Int.fract_lt_one _).le
    (Int.fract_nonneg _) (Int.fract_lt_one _).le
  rw [hi, hj] at we
  refine ⟨w, fun l => (((i + (corner l).1 : ℤ) : ℝ) / nk) • b1 + (((j + (corner l).2 : ℤ) : ℝ) / nk) • b2, w0, w1,
    fun l => ⟨_, _, rfl⟩, ?_, ?_, ?_⟩
  · have h1 : ∑ l, w l * (((i + (corner l).1 : ℤ) : ℝ) / nk) = p := by
      have : ∀ l, w l * (((i + (corner l).1 : ℤ) : ℝ) / nk) = (w l * i + w l * ((corner l).1 : ℝ)) / nk := by
        intro l; push_cast; ring
      simp only [this]
      rw [← Finset.sum_div, Finset.sum_add_distrib, ← Finset.sum_mul, w1, wu, one_mul, hi]
      field_simp
    have h2 : ∑ l, w l * (((j + (corner l).2 : ℤ) : ℝ) / nk) = r := by
      have : ∀ l, w l * (((j + (corner l).2 : ℤ) : ℝ) / nk) = (w l * j + w l * ((corner l).2 : ℝ)) / nk := by
        intro l; push_cast; ring
      simp only [this]
      rw [← Finset.sum_div, Finset.sum_add_distrib, ← Finset.sum_mul, w1, wv, one_mul, hj]
      field_simp
    simp only [smul_add, smul_smul, Finset.sum_add_distrib]
    rw [← Finset.sum_smul, ← Finset.sum_smul, h1, h2, he]
  · intro l hl
    have hd := wd l hl
    have e : (((i + (corner l).1 : ℤ) : ℝ) / nk) • b1 + (((j + (corner l).2 : ℤ) : ℝ) / nk) • b2 - k =
        ((((corner l).1 : ℝ) - u) / nk) • b1 + ((((corner l).2 : ℝ) - v) / nk) • b2 := by
      rw [he]
      have h1 : p = (i + u) / nk := by rw [hi]; field_simp
      have h2 : r = (j + v) / nk := by rw [hj]; field_simp
      rw [h1, h2]
      push_cast
      module
    rw [e, plane_sq, (plane_gram angle).1]
    have e2 : (nk : ℝ) ^ 2 * (bsq angle * Verif.Voronoi.sqDist (toV angle) ((((corner l).1 : ℝ) - u) / nk) ((((corner l).2 : ℝ) - v) / nk)) =
        bsq angle * Verif.Voronoi.sqDist (toV angle) (((corner l).1 : ℝ) - u) (((corner l).2 : ℝ) - v) := by
      unfold Verif.Voronoi.sqDist
      field_simp
    rw [e2, mul_comm]
    exact mul_le_mul_of_nonneg_right hd (bsq_pos angle).le
  · rw [we]
    refine Finset.sum_congr rfl fun l _ => ?_
    rw [ext_samples hn hF hm]

/-! ### Images -/

/-- The center of the pixel in row `i` from the top and column `j` from the left. -/
theorem center_eq (kxmin kxmax kymin kymax : ℝ) (nkx nky i j : Nat) (hi : i < nky) :
    center kxmin kxmax kymin kymax nkx nky i j = ![kxmin + ((j : ℝ) + 1 / 2) * ((kxmax - kxmin) / nkx),
      kymax - ((i : ℝ) + 1 / 2) * ((kymax - kymin) / nky)] := by
  have h : (nky : ℝ) ≠ 0 := by exact_mod_cast (by omega : nky ≠ 0)
  unfold center lin1
  have e : ((nky - 1 - i : Nat) : ℝ) = nky - 1 - i := by
    rw [Nat.sub_sub, Nat.cast_sub (by omega)]
    push_cast
    ring
  rw [e]
  congr 1
  · ring
  · congr 1
    field_simp
    ring

theorem npix_eq (resolution lo hi : ℝ) (h : 0 ≤ resolution * (hi - lo)) :
    ∃ n : Nat, npix resolution lo hi = some n ∧ |(n : ℝ) - resolution * (hi - lo)| ≤ 1 / 2 := by
  unfold npix roundEven
  set x := resolution * (hi - lo)
  have h0 : 0 ≤ ⌊x⌋ := Int.floor_nonneg.2 h
  have h1 := Int.floor_add_fract x
  have h2 := Int.fract_nonneg x
  have h3 := Int.fract_lt_one x
  have key : ∀ z : ℤ, 0 ≤ z → |(z : ℝ) - x| ≤ 1 / 2 → ∃ n : Nat, (if z < 0 then none else some z.toNat) = some n ∧ |(n : ℝ) - x| ≤ 1 / 2 := by
    intro z hz hx
    refine ⟨z.toNat, if_neg (by omega), ?_⟩
    have : ((z.toNat : ℤ) : ℝ) = z := by exact_mod_cast Int.toNat_of_nonneg hz
    rw [← this] at hx
    exact_mod_cast hx
  simp only
  split
  · exact key _ h0 (abs_le.2 ⟨by linarith, by linarith⟩)
  · split
    · exact key _ (by omega) (abs_le.2 ⟨by push_cast; linarith, by push_cast; linarith⟩)
    · split
      · exact key _ h0 (abs_le.2 ⟨by linarith, by linarith⟩)
      · exact key _ (by omega) (abs_le.2 ⟨by push_cast; linarith, by push_cast; linarith⟩)

theorem flat_getElem {α : Type} (f : Nat → α) (ny nx i j : Nat) (hi : i < ny) (hj : j < nx) :
    ((List.range (ny * nx)).map f)[i * nx + j]? = some (f (i * nx + j)) := by
  rw [List.getElem?_map, List.getElem?_range]
  · rfl
  · calc i * nx + j < i * nx + nx := by omega
      _ = (i + 1) * nx := by ring
      _ ≤ ny * nx := Nat.mul_le_mul_right _ hi

theorem flat_div (nx i j : Nat) (hj : j < nx) : (i * nx + j) / nx = i ∧ (i * nx + j) % nx = j := by
  constructor
  · rw [mul_comm, Nat.mul_add_div (by omega), Nat.div_eq_of_lt hj, add_zero]
  · rw [mul_comm, Nat.mul_add_mod, Nat.mod_eq_of_lt hj]

/-- C159: each pixel of `plot` shows the linear interpolation between the nearest mesh points at its center, for any number of
processes; rows are counted from the top. -/
theorem C159_plot (procs : Nat) (hp : 0 < procs) (angle : Angle) (nk : Nat) (hn : 0 < nk) (F : R2 → V)
    (hF : Periodic2 (planeB angle).1 (planeB angle).2 F) (mesh : Int → Int → V)
    (hm : Samples (planeB angle).1 (planeB angle).2 nk F mesh) (kxmin kxmax kymin kymax resolution : ℝ)
    (hx : 0 ≤ resolution * (kxmax - kxmin)) (hy : 0 ≤ resolution * (kymax - kymin)) :
    ∃ (nky nkx : Nat) (image : List V), plot procs angle mesh nk kxmin kxmax kymin kymax resolution = some (nky, nkx, image) ∧
      |(nkx : ℝ) - resolution * (kxmax - kxmin)| ≤ 1 / 2 ∧ |(nky : ℝ) - resolution * (kymax - kymin)| ≤ 1 / 2 ∧
      image.length = nky * nkx ∧ ∀ i j, i < nky → j < nkx → ∃ z, image[i * nkx + j]? = some z ∧
        Shows (planeB angle).1 (planeB angle).2 nk F (maxSq angle) ![kxmin + ((j : ℝ) + 1 / 2) * ((kxmax - kxmin) / nkx),
          kymax - ((i : ℝ) + 1 / 2) * ((kymax - kymin) / nky)] z := by
  obtain ⟨nkx, h1, hx'⟩ := npix_eq _ _ _ hx
  obtain ⟨nky, h2, hy'⟩ := npix_eq _ _ _ hy
  refine ⟨nky, nkx, (List.range (nky * nkx)).map fun m => plotPixel angle mesh nk
    (center kxmin kxmax kymin kymax nkx nky (m / nkx) (m % nkx)), ?_, hx', hy', by simp, ?_⟩
  · unfold plot
    rw [h1, h2, Option.bind_some, Option.bind_some, Verif.MPI.C02_parMap procs hp, Option.map_some]
  · intro i j hi hj
    refine ⟨_, flat_getElem _ nky nkx i j hi hj, ?_⟩
    obtain ⟨e1, e2⟩ := flat_div nkx i j hj
    rw [e1, e2, center_eq _ _ _ _ _ _ _ _ hi]
    exact shows_interp angle hn hF hm _

/-- C159: a pixel centered at a mesh point shows the value at this point. -/
theorem C159_point (angle : Angle) (nk : Nat) (hn : 0 < nk) (F : R2 → V)
    (hF : Periodic2 (planeB angle).1 (planeB angle).2 F) (mesh : Int → Int → V)
    (hm : Samples (planeB angle).1 (planeB angle).2 nk F mesh) (i j : ℤ) (k : R2)
    (hk : k = ((i : ℝ) / nk) • (planeB angle).1 + ((j : ℝ) / nk) • (planeB angle).2) : plotPixel angle mesh nk k = F k := by
  have hz : (nk : ℝ) ≠ 0 := by exact_mod_cast hn.ne'
  obtain ⟨d11, d12, d21, d22⟩ := plane_dual angle
  have e1 : dot2 k (planeA angle).1 * nk = (i : ℝ) := by
    rw [hk]
    unfold dot2 at *
    simp only [Pi.add_apply, Pi.smul_apply, smul_eq_mul]
    field_simp
    linear_combination (i : ℝ) * d11 + (j : ℝ) * d12
  have e2 : dot2 k (planeA angle).2 * nk = (j : ℝ) := by
    rw [hk]
    unfold dot2 at *
    simp only [Pi.add_apply, Pi.smul_apply, smul_eq_mul]
    field_simp
    linear_combination (i : ℝ) * d21 + (j : ℝ) * d22
  show interp2 angle noStk mesh nk nk (dot2 k (planeA angle).1 * nk) (dot2 k (planeA angle).2 * nk) = F k
  rw [e1, e2, C23_mesh_points, hk]
  exact ext_samples hn hF hm i j

/-! ### Nearest point -/

theorem minBy_mem {α : Type} (f : α → ℝ) (a : α) (l : List α) : minBy f a l ∈ a :: l ∧ ∀ b ∈ a :: l, f (minBy f a l) ≤ f b := by
  induction l generalizing a with
  | nil => simp [minBy]
  | cons c l ih =>
    unfold minBy
    obtain ⟨h1, h2⟩ := ih (if f c < f a then c else a)
    constructor
    · rcases List.mem_cons.1 h1 with h | h
      · rw [h]
        split <;> simp
      · simp [h]
    · intro b hb
      have h3 := h2 _ List.mem_cons_self
      simp only [List.mem_cons] at hb
      rcases hb with rfl | rfl | hb
      · refine h3.trans ?_
        split
        · next h => exact h.le
        · exact le_rfl
      · refine h3.trans ?_
        split
        · exact le_rfl
        · next h => exact not_lt.1 h
      · exact h2 b (List.mem_cons_of_mem _ hb)

/-- One of the corners of the unit square is nearest. -/
theorem exists_corner (angle : Angle) (u v : ℝ) (hu0 : 0 ≤ u) (hu1 : u ≤ 1) (hv0 : 0 ≤ v) (hv1 : v ≤ 1) :
    ∃ l, ∀ m n : ℤ, Verif.Voronoi.sqDist (toV angle) ((corner l).1 - u) ((corner l).2 - v) ≤
      Verif.Voronoi.sqDist (toV angle) (m - u) (n - v) := by
  cases angle
  · have key : ∀ c1 c2 : ℤ, |2 * (u - c1) + (v - c2)| ≤ 1 → |(u - c1) + 2 * (v - c2)| ≤ 1 → |(u - c1) - (v - c2)| ≤ 1 →
        ∀ m n : ℤ, Verif.Voronoi.sqDist (toV .a60) ((c1 : ℝ) - u) ((c2 : ℝ) - v) ≤ Verif.Voronoi.sqDist (toV .a60) (m - u) (n - v) := by
      intro c1 c2 h1 h2 h3 m n
      have := hex_bound (2 * (u - c1) + (v - c2)) (-((u - c1) + 2 * (v - c2))) h1 (by rwa [abs_neg])
        (by convert h3 using 2; ring) (m - c1) (c2 - n)
      push_cast at this
      simp only [Verif.Voronoi.sqDist, toV, Verif.Voronoi.Angle.sgn, Int.cast_one]
      linarith
    by_cases h1 : 2 * u + v ≤ 1 ∧ u + 2 * v ≤ 1
    · exact ⟨0, key 0 0 (abs_le.2 ⟨by push_cast; linarith, by push_cast; linarith⟩) (abs_le.2 ⟨by push_cast; linarith, by push_cast; linarith⟩)
        (abs_le.2 ⟨by push_cast; linarith, by push_cast; linarith⟩)⟩
    by_cases h2 : 2 ≤ 2 * u + v ∧ 2 ≤ u + 2 * v
    · exact ⟨3, key 1 1 (abs_le.2 ⟨by push_cast; linarith, by push_cast; linarith⟩) (abs_le.2 ⟨by push_cast; linarith, by push_cast; linarith⟩)
        (abs_le.2 ⟨by push_cast; linarith, by push_cast; linarith⟩)⟩
    rcases le_total v u with h | h
    · have h3 : 1 < 2 * u + v := by
        by_contra hn
        exact h1 ⟨by linarith, by linarith⟩
      have h4 : u + 2 * v < 2 := by
        by_contra hn
        exact h2 ⟨by linarith, by linarith⟩
      exact ⟨1, key 1 0 (abs_le.2 ⟨by push_cast; linarith, by push_cast; linarith⟩) (abs_le.2 ⟨by push_cast; linarith, by push_cast; linarith⟩)
        (abs_le.2 ⟨by push_cast; linarith, by push_cast; linarith⟩)⟩
    · have h3 : 1 < u + 2 * v := by
        by_contra hn
        exact h1 ⟨by linarith, by linarith⟩
      have h4 : 2 * u + v < 2 := by
        by_contra hn
        exact h2 ⟨by linarith, by linarith⟩
      exact ⟨2, key 0 1 (abs_le.2 ⟨by push_cast; linarith, by push_cast; linarith⟩) (abs_le.2 ⟨by push_cast; linarith, by push_cast; linarith⟩)
        (abs_le.2 ⟨by push_cast; linarith, by push_cast; linarith⟩)⟩
  · have key : ∀ c1 c2 : ℤ, |2 * (u - c1)| ≤ 1 → |2 * (v - c2)| ≤ 1 →
        ∀ m n : ℤ, Verif.Voronoi.sqDist (toV .a90) ((c1 : ℝ) - u) ((c2 : ℝ) - v) ≤ Verif.Voronoi.sqDist (toV .a90) (m - u) (n - v) := by
      intro c1 c2 h1 h2 m n
      have := square_bound (2 * (u - c1)) (2 * (v - c2)) h1 h2 (m - c1) (n - c2)
      push_cast at this
      simp only [Verif.Voronoi.sqDist, toV, Verif.Voronoi.Angle.sgn, Int.cast_zero, zero_mul, add_zero]
      linarith
    rcases le_total u (1 / 2) with h1 | h1 <;> rcases le_total v (1 / 2) with h2 | h2
    · exact ⟨0, key 0 0 (abs_le.2 ⟨by push_cast; linarith, by push_cast; linarith⟩) (abs_le.2 ⟨by push_cast; linarith, by push_cast; linarith⟩)⟩
    · exact ⟨2, key 0 1 (abs_le.2 ⟨by push_cast; linarith, by push_cast; linarith⟩) (abs_le.2 ⟨by push_cast; linarith, by push_cast; linarith⟩)⟩
    · exact ⟨1, key 1 0 (abs_le.2 ⟨by push_cast; linarith, by push_cast; linarith⟩) (abs_le.2 ⟨by push_cast; linarith, by push_cast; linarith⟩)⟩
    · exact ⟨3, key 1 1 (abs_le.2 ⟨by push_cast; linarith, by push_cast; linarith⟩) (abs_le.2 ⟨by push_cast; linarith, by push_cast; linarith⟩)⟩
  · have key : ∀ c1 c2 : ℤ, |2 * (u - c1) - (v - c2)| ≤ 1 → |2 * (v - c2) - (u - c1)| ≤ 1 → |(u - c1) + (v - c2)| ≤ 1 →
        ∀ m n : ℤ, Verif.Voronoi.sqDist (toV .a120) ((c1 : ℝ) - u) ((c2 : ℝ) - v) ≤ Verif.Voronoi.sqDist (toV .a120) (m - u) (n - v) := by
      intro c1 c2 h1 h2 h3 m n
      have := hex_bound (2 * (u - c1) - (v - c2)) (2 * (v - c2) - (u - c1)) h1 h2
        (by convert h3 using 2; ring) (m - c1) (n - c2)
      push_cast at this
      simp only [Verif.Voronoi.sqDist, toV, Verif.Voronoi.Angle.sgn]
      push_cast
      linarith
    by_cases h1 : 2 * v < u
    · by_cases h2 : 2 * u - v ≤ 1
      · exact ⟨0, key 0 0 (abs_le.2 ⟨by push_cast; linarith, by push_cast; linarith⟩) (abs_le.2 ⟨by push_cast; linarith, by push_cast; linarith⟩)
          (abs_le.2 ⟨by push_cast; linarith, by push_cast; linarith⟩)⟩
      · exact ⟨1, key 1 0 (abs_le.2 ⟨by push_cast; linarith, by push_cast; linarith⟩) (abs_le.2 ⟨by push_cast; linarith, by push_cast; linarith⟩)
          (abs_le.2 ⟨by push_cast; linarith, by push_cast; linarith⟩)⟩
    · by_cases h3 : 2 * u < v
      · by_cases h2 : 2 * v - u ≤ 1
        · exact ⟨0, key 0 0 (abs_le.2 ⟨by push_cast; linarith, by push_cast; linarith⟩) (abs_le.2 ⟨by push_cast; linarith, by push_cast; linarith⟩)
            (abs_le.2 ⟨by push_cast; linarith, by push_cast; linarith⟩)⟩
        · exact ⟨2, key 0 1 (abs_le.2 ⟨by push_cast; linarith, by push_cast; linarith⟩) (abs_le.2 ⟨by push_cast; linarith, by push_cast; linarith⟩)
            (abs_le.2 ⟨by push_cast; linarith, by push_cast; linarith⟩)⟩
      · by_cases h2 : u + v ≤ 1
        · exact ⟨0, key 0 0 (abs_le.2 ⟨by push_cast; linarith, by push_cast; linarith⟩) (abs_le.2 ⟨by push_cast; linarith, by push_cast; linarith⟩)
            (abs_le.2 ⟨by push_cast; linarith, by push_cast; linarith⟩)⟩
        · exact ⟨3, key 1 1 (abs_le.2 ⟨by push_cast; linarith, by push_cast; linarith⟩) (abs_le.2 ⟨by push_cast; linarith, by push_cast; linarith⟩)
            (abs_le.2 ⟨by push_cast; linarith, by push_cast; linarith⟩)⟩

/-- The nearest of the four neighbors is the nearest of all points. -/
theorem nearest_le (angle : Angle) (q1 q2 : ℝ) (m n : ℤ) :
    Verif.Voronoi.sqDist (toV angle) ((nearest angle q1 q2).1 - q1) ((nearest angle q1 q2).2 - q2) ≤
      Verif.Voronoi.sqDist (toV angle) (m - q1) (n - q2) := by
  have h1 := Int.floor_add_fract q1
  have h2 := Int.floor_add_fract q2
  obtain ⟨l, hl⟩ := exists_corner angle (Int.fract q1) (Int.fract q2) (Int.fract_nonneg _) (Int.fract_lt_one _).le
    (Int.fract_nonneg _) (Int.fract_lt_one _).le
  have h3 := (minBy_mem (fun q : ℤ × ℤ => Verif.Voronoi.sqDist (toV angle) (q.1 - q1) (q.2 - q2)) (⌊q1⌋, ⌊q2⌋)
    [(⌊q1⌋, ⌊q2⌋ + 1), (⌊q1⌋ + 1, ⌊q2⌋), (⌊q1⌋ + 1, ⌊q2⌋ + 1)]).2 (⌊q1⌋ + (corner l).1, ⌊q2⌋ + (corner l).2) (by
      fin_cases l <;> simp [corner])
  refine le_trans h3 (le_trans (le_of_eq ?_) (le_trans (hl (m - ⌊q1⌋) (n - ⌊q2⌋)) (le_of_eq ?_)))
  · congr 1
    · push_cast; linarith
    · push_cast; linarith
  · congr 1
    · push_cast; linarith
    · push_cast; linarith

/-! ### Double plot -/

theorem qInt_mesh (nq : Nat) (hq : 0 < nq) (m n : ℤ) : qInt nq (2 * Real.pi * m / nq, 2 * Real.pi * n / nq) = (m, n) := by
  have h : ∀ m : ℤ, 2 * Real.pi * m / nq / (2 * Real.pi) * nq = m := by
    intro m
    have := Real.pi_ne_zero
    have h2 : (nq : ℝ) ≠ 0 := by exact_mod_cast hq.ne'
    field_simp
  unfold qInt
  simp only [h, roundEven_int]

/-- C159: the image of `double_plot` consists of small Brillouin zones around the given q points, scaled down by `nq`, each of
which shows the function of k for this q point. Pixels that belong to other q points are set to `outside`. -/
theorem C159_double (procs : Nat) (hp : 0 < procs) (angle : Angle) (nk nq : Nat) (hn : 0 < nk) (hq : 0 < nq)
    (data : List ((ℤ × ℤ) × (R2 → V) × (Int → Int → V)))
    (hF : ∀ e ∈ data, Periodic2 (planeB angle).1 (planeB angle).2 e.2.1 ∧ Samples (planeB angle).1 (planeB angle).2 nk e.2.1 e.2.2)
    (hd : (data.map Prod.fst).Nodup) (qxmin qxmax qymin qymax resolution : ℝ) (outside : V)
    (hx : 0 ≤ resolution * (qxmax - qxmin)) (hy : 0 ≤ resolution * (qymax - qymin)) :
    ∃ (nqy nqx : Nat) (image : List V), doublePlot procs angle (data.map fun e =>
        ((2 * Real.pi * e.1.1 / nq, 2 * Real.pi * e.1.2 / nq), e.2.2)) nk nq qxmin qxmax qymin qymax resolution outside =
        some (nqy, nqx, image) ∧
      |(nqx : ℝ) - resolution * (qxmax - qxmin)| ≤ 1 / 2 ∧ |(nqy : ℝ) - resolution * (qymax - qymin)| ≤ 1 / 2 ∧
      image.length = nqy * nqx ∧ ∀ i j, i < nqy → j < nqx → ∃ z, image[i * nqx + j]? = some z ∧ ∃ (Q : ℤ × ℤ) (k : R2),
        (nq : ℝ) • (![qxmin + ((j : ℝ) + 1 / 2) * ((qxmax - qxmin) / nqx), qymax - ((i : ℝ) + 1 / 2) * ((qymax - qymin) / nqy)] : R2) =
          k + (Q.1 : ℝ) • (planeB angle).1 + (Q.2 : ℝ) • (planeB angle).2 ∧
        Closest (planeB angle).1 (planeB angle).2 k ∧
        (∀ e ∈ data, e.1 = Q → Shows (planeB angle).1 (planeB angle).2 nk e.2.1 (maxSq angle) k z) ∧
        ((∀ e ∈ data, e.1 ≠ Q) → z = outside) := by
  obtain ⟨nqx, h1, hx'⟩ := npix_eq _ _ _ hx
  obtain ⟨nqy, h2, hy'⟩ := npix_eq _ _ _ hy
  set D : List ((ℝ × ℝ) × (Int → Int → V)) := data.map fun e => ((2 * Real.pi * e.1.1 / nq, 2 * Real.pi * e.1.2 / nq), e.2.2) with hD
  refine ⟨nqy, nqx, (List.range (nqy * nqx)).map fun m => doublePixel angle D nk nq outside
    (center qxmin qxmax qymin qymax nqx nqy (m / nqx) (m % nqx)), ?_, hx', hy', by simp, ?_⟩
  · unfold doublePlot
    rw [h1, h2, Option.bind_some, Option.bind_some, Verif.MPI.C02_parMap procs hp, Option.map_some]
  intro i j hi hj
  refine ⟨_, flat_getElem _ nqy nqx i j hi hj, ?_⟩
  obtain ⟨e1, e2⟩ := flat_div nqx i j hj
  rw [e1, e2, center_eq _ _ _ _ _ _ _ _ hi]
  generalize (![qxmin + ((j : ℝ) + 1 / 2) * ((qxmax - qxmin) / nqx), qymax - ((i : ℝ) + 1 / 2) * ((qymax - qymin) / nqy)] : R2) = p
  have hex := plane_expand angle p
  set q1 := dot2 p (planeA angle).1 with hq1
  set q2 := dot2 p (planeA angle).2 with hq2
  set b1 := (planeB angle).1 with hb1
  set b2 := (planeB angle).2 with hb2
  set Q := nearest angle (q1 * nq) (q2 * nq) with hQ
  have hk : (nq : ℝ) • p - (Q.1 : ℝ) • b1 - (Q.2 : ℝ) • b2 = (q1 * nq - Q.1) • b1 + (q2 * nq - Q.2) • b2 := by
    conv_lhs => rw [hex]
    module
  refine ⟨Q, (nq : ℝ) • p - (Q.1 : ℝ) • b1 - (Q.2 : ℝ) • b2, by module, ?_, ?_, ?_⟩
  · intro m n
    rw [hk]
    have e : (q1 * nq - Q.1) • b1 + (q2 * nq - Q.2) • b2 - (m : ℝ) • b1 - (n : ℝ) • b2 =
        (q1 * nq - (Q.1 + m : ℤ)) • b1 + (q2 * nq - (Q.2 + n : ℤ)) • b2 := by
      push_cast
      module
    rw [e, plane_sq, plane_sq]
    refine mul_le_mul_of_nonneg_left ?_ (bsq_pos angle).le
    have h3 := nearest_le angle (q1 * nq) (q2 * nq) (Q.1 + m) (Q.2 + n)
    have hs : ∀ x y : ℝ, Verif.Voronoi.sqDist (toV angle) (x - q1 * nq) (y - q2 * nq) =
        Verif.Voronoi.sqDist (toV angle) (q1 * nq - x) (q2 * nq - y) := by
      intro x y
      unfold Verif.Voronoi.sqDist
      ring
    rw [hs, hs] at h3
    exact h3
  · intro e he heQ
    have hfind : D.reverse.find? (fun e => qInt nq e.1 = Q) = some ((2 * Real.pi * e.1.1 / nq, 2 * Real.pi * e.1.2 / nq), e.2.2) := by
      have hmem : ((2 * Real.pi * e.1.1 / nq, 2 * Real.pi * e.1.2 / nq), e.2.2) ∈ D := List.mem_map_of_mem he
      cases hf : D.reverse.find? (fun e => qInt nq e.1 = Q) with
      | none =>
        have := List.find?_eq_none.1 hf _ (List.mem_reverse.2 hmem)
        simp only [qInt_mesh nq hq, decide_eq_true_eq] at this
        exact absurd heQ this
      | some d =>
        have h3 := List.find?_some hf
        have h4 := List.mem_reverse.1 (List.mem_of_find?_eq_some hf)
        obtain ⟨e', he', rfl⟩ := List.mem_map.1 h4
        simp only [qInt_mesh nq hq, decide_eq_true_eq] at h3
        have : e' = e := List.inj_on_of_nodup_map hd he' he (h3.trans heQ.symm)
        rw [this]
    have hz : doublePixel angle D nk nq outside p = interp2 angle noStk e.2.2 nk nk (q1 * nq * nk) (q2 * nq * nk) := by
      show (match D.reverse.find? (fun e => qInt nq e.1 = Q) with
        | some e => interp2 angle noStk e.2 nk nk (q1 * nq * nk) (q2 * nq * nk)
        | none => outside) = _
      rw [hfind]
    rw [hz]
    have h5 := shows_interp angle hn (hF e he).1 (hF e he).2 ((nq : ℝ) • p - (Q.1 : ℝ) • b1 - (Q.2 : ℝ) • b2)
    obtain ⟨d11, d12, d21, d22⟩ := plane_dual angle
    have f1 : dot2 ((nq : ℝ) • p - (Q.1 : ℝ) • b1 - (Q.2 : ℝ) • b2) (planeA angle).1 * nk = q1 * nq * nk + (nk * (-Q.1) : ℤ) := by
      rw [dot2_lin, dot2_comm b1, dot2_comm b2, d11, d12]
      push_cast
      simp only [hq1, dot2, Pi.smul_apply, smul_eq_mul]
      ring
    have f2 : dot2 ((nq : ℝ) • p - (Q.1 : ℝ) • b1 - (Q.2 : ℝ) • b2) (planeA angle).2 * nk = q2 * nq * nk + (nk * (-Q.2) : ℤ) := by
      rw [dot2_lin, dot2_comm b1, dot2_comm b2, d21, d22]
      push_cast
      simp only [hq2, dot2, Pi.smul_apply, smul_eq_mul]
      ring
    rw [f1, f2, C23_periodic] at h5
    exact h5
  · intro hno
    have hfind : D.reverse.find? (fun e => qInt nq e.1 = Q) = none := by
      rw [List.find?_eq_none]
      intro d hd
      obtain ⟨e, he, rfl⟩ := List.mem_map.1 (List.mem_reverse.1 hd)
      simp only [qInt_mesh nq hq, decide_eq_true_eq]
      exact hno e he
    show (match D.reverse.find? (fun e => qInt nq e.1 = Q) with
        | some e => interp2 angle noStk e.2 nk nk (q1 * nq * nk) (q2 * nq * nk)
        | none => outside) = _
    rw [hfind]

/-! ### Outlines -/

theorem onLine_cyclic (a b c d e f k : R2) : OnLine [f, a, b, c, d, e, f] k ↔ OnLine [a, b, c, d, e, f, a] k := by
  unfold OnLine
  constructor
  · rintro ⟨i, p, q, hp, hq, h⟩
    have hi : i < 6 := by
      by_contra hn
      rw [List.getElem?_eq_none (by simp; omega)] at hq
      simp at hq
    interval_cases i
    · exact ⟨5, p, q, hp, hq, h⟩
    · exact ⟨0, p, q, hp, hq, h⟩
    · exact ⟨1, p, q, hp, hq, h⟩
    · exact ⟨2, p, q, hp, hq, h⟩
    · exact ⟨3, p, q, hp, hq, h⟩
    · exact ⟨4, p, q, hp, hq, h⟩
  · rintro ⟨i, p, q, hp, hq, h⟩
    have hi : i < 6 := by
      by_contra hn
      rw [List.getElem?_eq_none (by simp; omega)] at hq
      simp at hq
    interval_cases i
    · exact ⟨1, p, q, hp, hq, h⟩
    · exact ⟨2, p, q, hp, hq, h⟩
    · exact ⟨3, p, q, hp, hq, h⟩
    · exact ⟨4, p, q, hp, hq, h⟩
    · exact ⟨5, p, q, hp, hq, h⟩
    · exact ⟨0, p, q, hp, hq, h⟩

/-- Shifted and scaled outlines. -/
theorem onLine_map (l : List R2) (c : R2) (s : ℝ) (hs : s ≠ 0) (k : R2) :
    OnLine (l.map fun p => fun x => (c x + p x) / s) k ↔ OnLine l (s • k - c) := by
  unfold OnLine
  simp only [List.getElem?_map, Option.map_eq_some_iff]
  constructor
  · rintro ⟨i, _, _, ⟨p, hp, rfl⟩, ⟨q, hq, rfl⟩, t, h0, h1, rfl⟩
    refine ⟨i, p, q, hp, hq, t, h0, h1, ?_⟩
    ext x
    simp only [Pi.add_apply, Pi.sub_apply, Pi.smul_apply, smul_eq_mul]
    field_simp
    ring
  · rintro ⟨i, p, q, hp, hq, t, h0, h1, h⟩
    refine ⟨i, _, _, ⟨p, hp, rfl⟩, ⟨q, hq, rfl⟩, t, h0, h1, ?_⟩
    ext x
    have := congrFun h x
    simp only [Pi.add_apply, Pi.sub_apply, Pi.smul_apply, smul_eq_mul] at this ⊢
    have e : k x = (s * k x) / s := by field_simp
    rw [e, eq_add_of_sub_eq this]
    field_simp
    ring

/-- Corners around the origin. -/
noncomputable def miniHex : List R2 := [![2 / 3, 0], ![1 / 3, 1 / √3], ![-(1 / 3), 1 / √3], ![-(2 / 3), 0], ![-(1 / 3), -(1 / √3)],
  ![1 / 3, -(1 / √3)], ![2 / 3, 0]]

theorem plane_vectors (angle : Angle) : (planeB angle) = match angle with
    | .a60 => (![1, 1 / √3], ![0, 2 / √3])
    | .a90 => (![1, 0], ![0, 1])
    | .a120 => (![1, -(1 / √3)], ![0, 2 / √3]) := by
  have hs := (sin_cos (compl angle)).1
  have hc := (sin_cos (compl angle)).2
  have h3 : (√3 : ℝ) ≠ 0 := by positivity
  have h33 : (√3 : ℝ) * √3 = 3 := Real.mul_self_sqrt (by norm_num)
  unfold planeB
  rw [planeA_eq]
  unfold translations
  simp only [reciprocals2, rotate_m90, rotate_90]
  simp only [rotate, zero_mul, Real.cos_zero, Real.sin_zero, Matrix.cons_val_zero, Matrix.cons_val_one, hs, hc, dot2]
  cases angle
  all_goals
    simp only [compl, Prod.mk.injEq]
    constructor
    all_goals
      ext x
      fin_cases x <;> simp <;> field_simp <;> linarith

theorem miniHex_iff (angle : Angle) (ha : angle ≠ .a90) (k : R2) :
    OnLine miniHex k ↔ Boundary (planeB angle).1 (planeB angle).2 k := by
  obtain ⟨-, -, h3, h4⟩ := plane_cell angle
  rw [h3, h4, ← C106_outline_partial (compl angle) (by cases angle <;> simp [compl] at ha ⊢), outline_eq, ← h3, ← h4,
    plane_vectors]
  have h3 : (√3 : ℝ) ≠ 0 := by positivity
  cases angle
  · simp only [compl, hexCorners, List.map_cons, List.map_nil]
    rw [← onLine_cyclic]
    unfold miniHex
    refine iff_of_eq (congrArg₂ OnLine ?_ rfl)
    simp only [List.cons.injEq, and_true]
    refine ⟨?_, ?_, ?_, ?_, ?_, ?_, ?_⟩ <;>
    · ext x
      fin_cases x <;> simp <;> field_simp <;> norm_num
  · exact absurd rfl ha
  · simp only [compl, hexCorners, List.map_cons, List.map_nil]
    rw [← onLine_cyclic]
    unfold miniHex
    refine iff_of_eq (congrArg₂ OnLine ?_ rfl)
    simp only [List.cons.injEq, and_true]
    refine ⟨?_, ?_, ?_, ?_, ?_, ?_, ?_⟩ <;>
    · ext x
      fin_cases x <;> simp <;> field_simp <;> norm_num

/-- Corners around the origin. -/
noncomputable def miniSquare : List R2 := [![1 / 2, -(1 / 2)], ![1 / 2, 1 / 2], ![-(1 / 2), 1 / 2], ![-(1 / 2), -(1 / 2)],
  ![1 / 2, -(1 / 2)]]

theorem miniSquare_iff (k : R2) : OnLine miniSquare k ↔ Boundary (planeB .a90).1 (planeB .a90).2 k := by
  obtain ⟨-, -, h3, h4⟩ := plane_cell .a90
  rw [h3, h4]
  show _ ↔ Boundary (bzCell .a90 0).b1 (bzCell .a90 0).b2 k
  rw [boundary_iff, inside_iff, dot_b3]
  have e1 : dot2 k (bzCell .a90 0).b1 = k 0 := by
    rw [show (bzCell .a90 0).b1 = (planeB .a90).1 from h3.symm, plane_vectors]
    simp [dot2]
  have e2 : dot2 k (bzCell .a90 0).b2 = k 1 := by
    rw [show (bzCell .a90 0).b2 = (planeB .a90).2 from h4.symm, plane_vectors]
    simp [dot2]
  have hM : (bzCell .a90 0).M = 1 / 2 := rfl
  simp only [e1, e2, hM]
  have e12 : (1 / 2 : ℝ) = |1 / 2| := by norm_num
  constructor
  · rintro ⟨i, p, q, hp, hq, t, h0, h1, rfl⟩
    have hi : i < 4 := by
      by_contra hn
      rw [List.getElem?_eq_none (by simp [miniSquare]; omega)] at hq
      simp at hq
    interval_cases i <;> simp [miniSquare] at hp hq <;> subst hp hq <;>
      simp only [Pi.add_apply, Pi.smul_apply, smul_eq_mul, Matrix.cons_val_zero, Matrix.cons_val_one, abs_le]
    · refine ⟨⟨⟨by linarith, by linarith⟩, ⟨by linarith, by linarith⟩, by linarith, by linarith⟩, Or.inl ?_⟩
      rw [abs_of_nonneg (by linarith)]; ring
    · refine ⟨⟨⟨by linarith, by linarith⟩, ⟨by linarith, by linarith⟩, by linarith, by linarith⟩, Or.inr (Or.inl ?_)⟩
      rw [abs_of_nonneg (by linarith)]; ring
    · refine ⟨⟨⟨by linarith, by linarith⟩, ⟨by linarith, by linarith⟩, by linarith, by linarith⟩, Or.inl ?_⟩
      rw [abs_of_nonpos (by linarith)]; ring
    · refine ⟨⟨⟨by linarith, by linarith⟩, ⟨by linarith, by linarith⟩, by linarith, by linarith⟩, Or.inr (Or.inl ?_)⟩
      rw [abs_of_nonpos (by linarith)]; ring
  · rintro ⟨⟨a1, a2, -⟩, h⟩
    rw [abs_le] at a1 a2
    have hk : ∀ x y : ℝ, k 0 = x → k 1 = y → k = ![x, y] := by
      intro x y h1 h2
      ext i
      fin_cases i
      · exact h1
      · exact h2
    rw [e12, abs_eq_abs, abs_eq_abs] at h
    have h : (k 0 = 1 / 2 ∨ k 0 = -(1 / 2)) ∨ (k 1 = 1 / 2 ∨ k 1 = -(1 / 2)) := by tauto
    have fin : ∀ (i : Nat) (p q : R2) (t : ℝ), miniSquare[i]? = some p → miniSquare[i + 1]? = some q → 0 ≤ t → t ≤ 1 →
        k 0 = (1 - t) * p 0 + t * q 0 → k 1 = (1 - t) * p 1 + t * q 1 → OnLine miniSquare k := by
      intro i p q t hp hq h0 h1 hx hy
      refine ⟨i, p, q, hp, hq, t, h0, h1, ?_⟩
      ext x
      fin_cases x
      · exact hx
      · exact hy
    rcases h with (h | h) | (h | h)
    · exact fin 0 _ _ (k 1 + 1 / 2) rfl rfl (by linarith) (by linarith) (by simp; linarith) (by simp; linarith)
    · exact fin 2 _ _ (1 / 2 - k 1) rfl rfl (by linarith) (by linarith) (by simp; linarith) (by simp; linarith)
    · exact fin 1 _ _ (1 / 2 - k 0) rfl rfl (by linarith) (by linarith) (by simp; linarith) (by simp; linarith)
    · exact fin 3 _ _ (k 0 + 1 / 2) rfl rfl (by linarith) (by linarith) (by simp; linarith) (by simp; linarith)

/-- C159: the outlines returned by `double_plot` are the boundaries between the small Brillouin zones. -/
theorem C159_outline (angle : Angle) (nq : Nat) (hq : 0 < nq) (Q : ℤ × ℤ) (p : R2) :
    OnLine (miniBZ angle nq Q) p ↔ Boundary (planeB angle).1 (planeB angle).2
      ((nq : ℝ) • p - (Q.1 : ℝ) • (planeB angle).1 - (Q.2 : ℝ) • (planeB angle).2) := by
  have hz : (nq : ℝ) ≠ 0 := by exact_mod_cast hq.ne'
  rw [sub_sub]
  have hc : ∀ c : R2, ∀ l : List R2, OnLine (l.map fun p => fun x => (c x + p x) / nq) p ↔ OnLine l ((nq : ℝ) • p - c) :=
    fun c l => onLine_map l c nq hz p
  have e : miniBZ angle nq Q = (match angle with | .a90 => miniSquare | _ => miniHex).map fun p : R2 => fun x : Fin 2 =>
      (((Q.1 : ℝ) • (planeB angle).1 + (Q.2 : ℝ) • (planeB angle).2) x + p x) / nq := by
    unfold miniBZ miniSquare miniHex
    rw [show reciprocals2 (planeA angle).1 (planeA angle).2 = planeB angle from rfl]
    dsimp only
    generalize (Q.1 : ℝ) • (planeB angle).1 + (Q.2 : ℝ) • (planeB angle).2 = c
    cases angle <;> simp only [List.map_cons, List.map_nil, List.cons.injEq, and_true]
    · refine ⟨?_, ?_, ?_, ?_, ?_, ?_, ?_⟩ <;>
      · ext x
        fin_cases x <;> simp <;> ring
    · refine ⟨?_, ?_, ?_, ?_, ?_⟩ <;>
      · ext x
        fin_cases x <;> norm_num <;> ring
    · refine ⟨?_, ?_, ?_, ?_, ?_, ?_, ?_⟩ <;>
      · ext x
        fin_cases x <;> simp <;> ring
  rw [e, hc]
  cases angle
  · exact miniHex_iff .a60 (by simp) _
  · exact miniSquare_iff _
  · exact miniHex_iff .a120 (by simp) _

/-! ### Examples -/

/-- A function with the periodicity of the reciprocal lattice. -/
noncomputable def wave (angle : Verif.Interp.Angle) (k : Verif.Bravais.R2) : ℝ := Real.cos (2 * Real.pi * Verif.Bravais.dot2 k (planeA angle).1)

theorem wave_periodic (angle : Verif.Interp.Angle) : Periodic2 (planeB angle).1 (planeB angle).2 (wave angle) := by
  intro k m n
  obtain ⟨d11, d12, -, -⟩ := plane_dual angle
  unfold wave
  have : Verif.Bravais.dot2 (k + (m : ℝ) • (planeB angle).1 + (n : ℝ) • (planeB angle).2) (planeA angle).1 =
      Verif.Bravais.dot2 k (planeA angle).1 + m := by
    unfold Verif.Bravais.dot2 at *
    simp only [Pi.add_apply, Pi.smul_apply, smul_eq_mul]
    linear_combination (m : ℝ) * d11 + (n : ℝ) * d12
  rw [this, mul_add, mul_comm (2 * Real.pi) (m : ℝ)]
  exact Real.cos_add_int_mul_two_pi _ m

/-- Values on the mesh. -/
noncomputable def waveMesh (angle : Verif.Interp.Angle) (nk : Nat) (i j : Int) : ℝ :=
  wave angle (((i : ℝ) / nk) • (planeB angle).1 + ((j : ℝ) / nk) • (planeB angle).2)

example : ∃ (nky nkx : Nat) (image : List ℝ), plot 4 .a60 (waveMesh .a60 12) 12 (-1) 1 (-1) 1 100 = some (nky, nkx, image) ∧
    |(nkx : ℝ) - 100 * (1 - -1)| ≤ 1 / 2 ∧ image.length = nky * nkx := by
  obtain ⟨nky, nkx, image, h1, h2, -, h3, -⟩ := C159_plot 4 (by norm_num) .a60 12 (by norm_num) (wave .a60) (wave_periodic _) (waveMesh .a60 12)
    (fun i j _ _ _ _ => rfl) (-1) 1 (-1) 1 100 (by norm_num) (by norm_num)
  exact ⟨nky, nkx, image, h1, h2, h3⟩

example : plotPixel .a120 (waveMesh .a120 3) 3 (((4 : ℤ) / (3 : Nat) : ℝ) • (planeB .a120).1 + ((-1 : ℤ) / (3 : Nat) : ℝ) • (planeB .a120).2) =
    wave .a120 (((4 : ℤ) / (3 : Nat) : ℝ) • (planeB .a120).1 + ((-1 : ℤ) / (3 : Nat) : ℝ) • (planeB .a120).2) :=
  C159_point .a120 3 (by norm_num) (wave .a120) (wave_periodic _) (waveMesh .a120 3) (fun i j _ _ _ _ => rfl) 4 (-1) _ rfl

example : ∃ (nqy nqx : Nat) (image : List ℝ), doublePlot 2 .a60 (([((0, 0), wave .a60, waveMesh .a60 12), ((1, -1), wave .a60, waveMesh .a60 12)] :
    List ((ℤ × ℤ) × (Verif.Bravais.R2 → ℝ) × (Int → Int → ℝ))).map fun e =>
      ((2 * Real.pi * e.1.1 / (3 : Nat), 2 * Real.pi * e.1.2 / (3 : Nat)), e.2.2)) 12 3 (-0.8) 0.8 (-0.8) 0.8 500 0 = some (nqy, nqx, image) ∧
    image.length = nqy * nqx := by
  obtain ⟨nqy, nqx, image, h1, -, -, h3, -⟩ := C159_double 2 (by norm_num) .a60 12 3 (by norm_num) (by norm_num)
    [((0, 0), wave .a60, waveMesh .a60 12), ((1, -1), wave .a60, waveMesh .a60 12)] (by
      intro e he
      simp only [List.mem_cons, List.not_mem_nil, or_false] at he
      rcases he with rfl | rfl <;> exact ⟨wave_periodic _, fun i j _ _ _ _ => rfl⟩) (by simp)
    (-0.8) 0.8 (-0.8) 0.8 500 0 (by norm_num) (by norm_num)
  exact ⟨nqy, nqx, image, h1, h3⟩

example (p : Verif.Bravais.R2) : OnLine (miniBZ .a120 7 (2, -1)) p ↔ Boundary (planeB .a120).1 (planeB .a120).2
    (((7 : Nat) : ℝ) • p - ((2 : ℤ) : ℝ) • (planeB .a120).1 - ((-1 : ℤ) : ℝ) • (planeB .a120).2) :=
  C159_outline .a120 7 (by norm_num) (2, -1) p

end Verif.Plot
