import Mathlib.Analysis.SpecialFunctions.Complex.Arg
import Mathlib.Algebra.Order.Round
import Verif.Bravais.Props
import Verif.Diag.Mesh
import Verif.Interp.Props

/-!
# Model of `elphmod/plot.py` 222-327: data on the Brillouin zone

Exact arithmetic. Angles other than 60, 90 and 120 degrees, for which `toBZ` raises an exception, are excluded by the type.
-/

namespace Verif.Plot

open Verif.Bravais Verif.Interp

/-- Angle in degrees. -/
def degrees : Angle → ℝ
  | .a60 => 60
  | .a90 => 90
  | .a120 => 120

/-- Variables `a1`, `a2`, `a3`, `b1`, `b2`, `b3`, `M` of `toBZ`. -/
structure Cell where
  a1 : R2
  a2 : R2
  a3 : R2
  b1 : R2
  b2 : R2
  b3 : R2
  M : ℝ

/-- `elphmod/plot.py` 235-251. -/
noncomputable def bzCell (angle : Angle) (angle0 : ℝ) : Cell :=
  let a := translations (degrees angle) angle0
  let b := reciprocals2 a.1 a.2
  match angle with
  | .a60 => ⟨a.1, a.2, a.1 - a.2, b.1, b.2, b.1 + b.2, 2 / 3⟩
  | .a90 => ⟨a.1, a.2, a.1, b.1, b.2, b.1, 1 / 2⟩
  | .a120 => ⟨a.1, a.2, a.1 + a.2, b.1, b.2, b.1 - b.2, 2 / 3⟩

/-- `elphmod/plot.py` 253-254: `kxmax` (`x = 0`) and `kymax` (`x = 1`). -/
noncomputable def Cell.kmax (c : Cell) (x : Fin 2) : ℝ := max (max |c.a1 x| |c.a2 x|) |c.a3 x| * c.M

/-- `elphmod/plot.py` 256-261: number of pixels along an axis. -/
noncomputable def pixels (points : ℝ) (even : Bool) (kmax : ℝ) : Nat :=
  let n := Verif.Diag.roundEven (points * kmax)
  (if even then n + n % 2 else n).toNat

/-- `elphmod/plot.py` 264-268: coordinates of pixels along an axis, `np.linspace(..., endpoint=False)` plus half a step. -/
noncomputable def coord (kmax : ℝ) (n j : Nat) : ℝ := -kmax + j * (2 * kmax / n) + 2 * kmax / n / 2

/-- `elphmod/plot.py` 300: point represented by a pixel in row `i` and column `j` (`ky` reversed, 270). -/
noncomputable def Cell.pixel (c : Cell) (nkx nky i j : Nat) : R2 := ![coord (c.kmax 0) nkx j, coord (c.kmax 1) nky (nky - 1 - i)]

/-- `elphmod/plot.py` 307-309: pixels not skipped. -/
def Cell.inside (c : Cell) (k : R2) : Prop := ¬|dot2 k c.b1| > c.M ∧ ¬|dot2 k c.b2| > c.M ∧ ¬|dot2 k c.b3| > c.M

/-- `elphmod/plot.py` 311-312: number of the data set shown. -/
noncomputable def wedge (ndata : Nat) (angle0 : ℝ) (k : R2) : Nat :=
  (⌊(Complex.arg ⟨k 0, k 1⟩ - angle0 * (Real.pi / 180)) * (ndata / (2 * Real.pi))⌋ % (ndata : ℤ)).toNat

variable {V : Type} [AddCommGroup V] [Module ℝ V]

/-- Body of the loop in `elphmod/plot.py` 296-314: value of the pixel with number `m`. -/
noncomputable def bzPixel (c : Cell) (interp : Angle) (data : List (Int → Int → V)) (nk : Nat) (angle0 : ℝ) (outside : V)
    (nkx nky m : Nat) : V :=
  let k := c.pixel nkx nky (m / nkx) (m % nkx)
  open Classical in
  if c.inside k then
    Verif.Interp.interp2 interp Verif.Interp.noStk (data.getD (wedge data.length angle0 k) (fun _ _ => 0)) nk nk
      (dot2 k c.a1 * nk) (dot2 k c.a2 * nk)
  else outside

/-- `elphmod/plot.py` 222-327 (`toBZ`) on `procs` processes: the flat image. The interpolation is that of
`linear_interpolation` with the given angle (default: 60). -/
noncomputable def toBZ (procs : Nat) (interp : Angle) (data : List (Int → Int → V)) (nk : Nat) (points : ℝ) (angle : Angle)
    (angle0 : ℝ) (outside : V) (even : Bool) : Option (List V) :=
  let c := bzCell angle angle0
  let nkx := pixels points even (c.kmax 0)
  let nky := pixels points even (c.kmax 1)
  Verif.MPI.parMap procs (bzPixel c interp data nk angle0 outside nkx nky) (List.range (nky * nkx))

/-! ### Specification -/

/-- The origin is among the closest reciprocal lattice points. -/
def Closest (b1 b2 : R2) (k : R2) : Prop := ∀ m n : ℤ, dot2 k k ≤ dot2 (k - (m : ℝ) • b1 - (n : ℝ) • b2) (k - (m : ℝ) • b1 - (n : ℝ) • b2)

/-! ### Geometry -/

theorem bz_b (angle : Angle) (angle0 : ℝ) :
    let c := bzCell angle angle0
    let a := translations (degrees angle) angle0
    c.a1 = a.1 ∧ c.a2 = a.2 ∧ c.b1 = (reciprocals2 a.1 a.2).1 ∧ c.b2 = (reciprocals2 a.1 a.2).2 := by
  cases angle <;> exact ⟨rfl, rfl, rfl, rfl⟩

theorem sin_cos (angle : Angle) :
    Real.sin (degrees angle * deg) = (match angle with | .a60 => √3 / 2 | .a90 => 1 | .a120 => √3 / 2) ∧
    Real.cos (degrees angle * deg) = (match angle with | .a60 => 1 / 2 | .a90 => 0 | .a120 => -(1 / 2)) := by
  cases angle
  · have : degrees .a60 * deg = Real.pi / 3 := by simp only [degrees, deg]; ring
    rw [this]
    exact ⟨Real.sin_pi_div_three, Real.cos_pi_div_three⟩
  · have : degrees .a90 * deg = Real.pi / 2 := by simp only [degrees, deg]; ring
    rw [this]
    exact ⟨Real.sin_pi_div_two, Real.cos_pi_div_two⟩
  · have : degrees .a120 * deg = Real.pi - Real.pi / 3 := by simp only [degrees, deg]; ring
    rw [this, Real.sin_pi_sub, Real.cos_pi_sub]
    exact ⟨Real.sin_pi_div_three, by rw [Real.cos_pi_div_three]⟩

/-- Squared sine. -/
theorem sin_sq (angle : Angle) : Real.sin (degrees angle * deg) ^ 2 = (match angle with | .a60 => 3 / 4 | .a90 => 1 | .a120 => 3 / 4) := by
  rw [(sin_cos angle).1]
  cases angle <;> norm_num [div_pow]

theorem sin_ne (angle : Angle) : Real.sin (degrees angle * deg) ≠ 0 := by
  intro h
  have := sin_sq angle
  rw [h] at this
  cases angle <;> norm_num at this

/-- Scalar products of the reciprocal lattice vectors. -/
theorem gram (angle : Angle) (angle0 : ℝ) :
    let c := bzCell angle angle0
    dot2 c.b1 c.b1 = 2 * c.M ∧ dot2 c.b2 c.b2 = 2 * c.M ∧
    dot2 c.b1 c.b2 = (match angle with | .a60 => -(2 / 3) | .a90 => 0 | .a120 => 2 / 3) ∧
    dot2 c.a1 c.b1 = 1 ∧ dot2 c.a1 c.b2 = 0 ∧ dot2 c.a2 c.b1 = 0 ∧ dot2 c.a2 c.b2 = 1 := by
  intro c
  obtain ⟨e1, e2, e3, e4⟩ := bz_b angle angle0
  obtain ⟨-, -, h11, h22, h12, hV⟩ := C30_translations (degrees angle) angle0
  have hs := sin_ne angle
  have hr := C30_reciprocals_2d (translations (degrees angle) angle0).1 (translations (degrees angle) angle0).2 (by rw [hV]; exact hs)
  simp only [c]
  rw [e1, e2, e3, e4]
  refine ⟨?_, ?_, ?_, hr⟩
  all_goals
    generalize (translations (degrees angle) angle0).1 = a1 at *
    generalize (translations (degrees angle) angle0).2 = a2 at *
    simp only [reciprocals2, rotate_m90, rotate_90]
    have d1 : dot2 a1 ![a2 1, -a2 0] = Real.sin (degrees angle * deg) := by
      simp only [dot2, Matrix.cons_val_zero, Matrix.cons_val_one]; linear_combination hV
    have d2 : dot2 a2 ![-a1 1, a1 0] = Real.sin (degrees angle * deg) := by
      simp only [dot2, Matrix.cons_val_zero, Matrix.cons_val_one]; linear_combination hV
    simp only [d1, d2]
    unfold dot2 at *
    simp only [Matrix.cons_val_zero, Matrix.cons_val_one]
    have hq := sin_sq angle
    have hc := (sin_cos angle).2
    rw [hc] at h12
  · have : a2 1 / Real.sin (degrees angle * deg) * (a2 1 / Real.sin (degrees angle * deg)) +
      -a2 0 / Real.sin (degrees angle * deg) * (-a2 0 / Real.sin (degrees angle * deg)) =
      (a2 0 * a2 0 + a2 1 * a2 1) / Real.sin (degrees angle * deg) ^ 2 := by field_simp; ring
    rw [this, h22, hq]
    cases angle <;> norm_num [bzCell]
  · have : -a1 1 / Real.sin (degrees angle * deg) * (-a1 1 / Real.sin (degrees angle * deg)) +
      a1 0 / Real.sin (degrees angle * deg) * (a1 0 / Real.sin (degrees angle * deg)) =
      (a1 0 * a1 0 + a1 1 * a1 1) / Real.sin (degrees angle * deg) ^ 2 := by field_simp; ring
    rw [this, h11, hq]
    cases angle <;> norm_num [bzCell]
  · have : a2 1 / Real.sin (degrees angle * deg) * (-a1 1 / Real.sin (degrees angle * deg)) +
      -a2 0 / Real.sin (degrees angle * deg) * (a1 0 / Real.sin (degrees angle * deg)) =
      -(a1 0 * a2 0 + a1 1 * a2 1) / Real.sin (degrees angle * deg) ^ 2 := by field_simp; ring
    rw [this, h12, hq]
    cases angle <;> norm_num

/-- Integer form of the hexagon. -/
theorem hex_int (m n : ℤ) (hm : 0 ≤ m) (h : m ≤ n) : n ≤ m ^ 2 + n ^ 2 - m * n := by
  rcases eq_or_lt_of_le h with rfl | hlt
  · nlinarith [Int.le_self_sq m]
  · nlinarith

theorem hex_bound (x y : ℝ) (hx : |x| ≤ 1) (hy : |y| ≤ 1) (hxy : |x + y| ≤ 1) (m n : ℤ) :
    m * x + n * y ≤ (m : ℝ) ^ 2 + (n : ℝ) ^ 2 - m * n := by
  obtain ⟨hx0, hx1⟩ := abs_le.1 hx
  obtain ⟨hy0, hy1⟩ := abs_le.1 hy
  obtain ⟨hz0, hz1⟩ := abs_le.1 hxy
  have key : ∀ p : ℤ, p ≤ m ^ 2 + n ^ 2 - m * n → (p : ℝ) ≤ (m : ℝ) ^ 2 + (n : ℝ) ^ 2 - m * n := by
    intro p hp
    exact_mod_cast hp
  have sm := Int.le_self_sq m
  have sm' := Int.le_self_sq (-m)
  have sn := Int.le_self_sq n
  have sn' := Int.le_self_sq (-n)
  rcases le_total 0 m with hm | hm <;> rcases le_total 0 n with hn | hn
  · have hm' : (0 : ℝ) ≤ m := by exact_mod_cast hm
    have hn' : (0 : ℝ) ≤ n := by exact_mod_cast hn
    rcases le_total n m with h | h
    · have h' : (n : ℝ) ≤ m := by exact_mod_cast h
      refine le_trans ?_ (key m ?_)
      · nlinarith
      · linarith [hex_int n m hn h]
    · have h' : (m : ℝ) ≤ n := by exact_mod_cast h
      refine le_trans ?_ (key n ?_)
      · nlinarith
      · exact hex_int m n hm h
  · have hm' : (0 : ℝ) ≤ m := by exact_mod_cast hm
    have hn' : (n : ℝ) ≤ 0 := by exact_mod_cast hn
    refine le_trans (b := ((m - n : ℤ) : ℝ)) ?_ (key _ ?_)
    · push_cast
      nlinarith
    · nlinarith
  · have hm' : (m : ℝ) ≤ 0 := by exact_mod_cast hm
    have hn' : (0 : ℝ) ≤ n := by exact_mod_cast hn
    refine le_trans (b := ((n - m : ℤ) : ℝ)) ?_ (key _ ?_)
    · push_cast
      nlinarith
    · nlinarith
  · have hm' : (m : ℝ) ≤ 0 := by exact_mod_cast hm
    have hn' : (n : ℝ) ≤ 0 := by exact_mod_cast hn
    rcases le_total n m with h | h
    · have h' : (n : ℝ) ≤ m := by exact_mod_cast h
      refine le_trans (b := ((-n : ℤ) : ℝ)) ?_ (key _ ?_)
      · push_cast
        nlinarith
      · linarith [hex_int (-m) (-n) (by omega) (by omega)]
    · have h' : (m : ℝ) ≤ n := by exact_mod_cast h
      refine le_trans (b := ((-m : ℤ) : ℝ)) ?_ (key _ ?_)
      · push_cast
        nlinarith
      · linarith [hex_int (-n) (-m) (by omega) (by omega)]

theorem square_bound (x y : ℝ) (hx : |x| ≤ 1) (hy : |y| ≤ 1) (m n : ℤ) : m * x + n * y ≤ (m : ℝ) ^ 2 + (n : ℝ) ^ 2 := by
  have key : ∀ (m : ℤ) (x : ℝ), |x| ≤ 1 → m * x ≤ (m : ℝ) ^ 2 := by
    intro m x hx
    obtain ⟨hx0, hx1⟩ := abs_le.1 hx
    rcases le_total 0 m with hm | hm
    · have hm' : (0 : ℝ) ≤ m := by exact_mod_cast hm
      have : (m : ℝ) ≤ (m : ℝ) ^ 2 := by exact_mod_cast Int.le_self_sq m
      nlinarith
    · have hm' : (m : ℝ) ≤ 0 := by exact_mod_cast hm
      have : (-m : ℝ) ≤ (-m : ℝ) ^ 2 := by exact_mod_cast Int.le_self_sq (-m)
      nlinarith
  linarith [key m x hx, key n y hy]

theorem dot2_comm (u v : R2) : dot2 u v = dot2 v u := by unfold dot2; ring

theorem dot2_shift (k b1 b2 : R2) (m n : ℝ) :
    dot2 (k - m • b1 - n • b2) (k - m • b1 - n • b2) = dot2 k k - 2 * (m * dot2 k b1 + n * dot2 k b2) +
      (m ^ 2 * dot2 b1 b1 + n ^ 2 * dot2 b2 b2 + 2 * m * n * dot2 b1 b2) := by
  simp only [dot2, Pi.sub_apply, Pi.smul_apply, smul_eq_mul]
  ring

theorem closest_iff (b1 b2 k : R2) : Closest b1 b2 k ↔ ∀ m n : ℤ, 2 * ((m : ℝ) * dot2 k b1 + n * dot2 k b2) ≤
    (m : ℝ) ^ 2 * dot2 b1 b1 + (n : ℝ) ^ 2 * dot2 b2 b2 + 2 * m * n * dot2 b1 b2 := by
  unfold Closest
  refine forall_congr' fun m => forall_congr' fun n => ?_
  rw [dot2_shift]
  constructor <;> intro h <;> linarith

theorem inside_iff (c : Cell) (k : R2) : c.inside k ↔ |dot2 k c.b1| ≤ c.M ∧ |dot2 k c.b2| ≤ c.M ∧ |dot2 k c.b3| ≤ c.M := by
  simp only [Cell.inside, not_lt, gt_iff_lt]

/-- The third vector. -/
theorem dot_b3 (angle : Angle) (angle0 : ℝ) (k : R2) : dot2 k (bzCell angle angle0).b3 =
    (match angle with
    | .a60 => dot2 k (bzCell .a60 angle0).b1 + dot2 k (bzCell .a60 angle0).b2
    | .a90 => dot2 k (bzCell .a90 angle0).b1
    | .a120 => dot2 k (bzCell .a120 angle0).b1 - dot2 k (bzCell .a120 angle0).b2) := by
  cases angle
  · simp only [bzCell, dot2, Pi.add_apply]; ring
  · rfl
  · simp only [bzCell, dot2, Pi.sub_apply]; ring

/-- C98: the pixels drawn are those of the Brillouin zone, i.e., those which are not closer to any reciprocal lattice point
than to the origin. -/
theorem C98_cell (angle : Angle) (angle0 : ℝ) (k : R2) :
    (bzCell angle angle0).inside k ↔ Closest (bzCell angle angle0).b1 (bzCell angle angle0).b2 k := by
  rw [inside_iff, closest_iff, dot_b3]
  obtain ⟨g1, g2, g3, -⟩ := gram angle angle0
  rw [g1, g2, g3]
  cases angle
  · have hM : (bzCell .a60 angle0).M = 2 / 3 := rfl
    rw [hM]
    generalize dot2 k (bzCell .a60 angle0).b1 = x
    generalize dot2 k (bzCell .a60 angle0).b2 = y
    constructor
    · rintro ⟨h1, h2, h3⟩ m n
      have := hex_bound (3 / 2 * x) (3 / 2 * y) (by rw [abs_mul]; norm_num; linarith) (by rw [abs_mul]; norm_num; linarith)
        (by rw [← mul_add, abs_mul]; norm_num; linarith) m n
      simp only
      linarith
    · intro h
      simp only at h ⊢
      refine ⟨abs_le.2 ⟨?_, ?_⟩, abs_le.2 ⟨?_, ?_⟩, abs_le.2 ⟨?_, ?_⟩⟩
      · have := h (-1) 0; norm_num at this; linarith
      · have := h 1 0; norm_num at this; linarith
      · have := h 0 (-1); norm_num at this; linarith
      · have := h 0 1; norm_num at this; linarith
      · have := h (-1) (-1); norm_num at this; linarith
      · have := h 1 1; norm_num at this; linarith
  · have hM : (bzCell .a90 angle0).M = 1 / 2 := rfl
    rw [hM]
    generalize dot2 k (bzCell .a90 angle0).b1 = x
    generalize dot2 k (bzCell .a90 angle0).b2 = y
    constructor
    · rintro ⟨h1, h2, h3⟩ m n
      have := square_bound (2 * x) (2 * y) (by rw [abs_mul]; norm_num; linarith) (by rw [abs_mul]; norm_num; linarith) m n
      simp only
      linarith
    · intro h
      simp only at h ⊢
      refine ⟨abs_le.2 ⟨?_, ?_⟩, abs_le.2 ⟨?_, ?_⟩, abs_le.2 ⟨?_, ?_⟩⟩
      · have := h (-1) 0; norm_num at this; linarith
      · have := h 1 0; norm_num at this; linarith
      · have := h 0 (-1); norm_num at this; linarith
      · have := h 0 1; norm_num at this; linarith
      · have := h (-1) 0; norm_num at this; linarith
      · have := h 1 0; norm_num at this; linarith
  · have hM : (bzCell .a120 angle0).M = 2 / 3 := rfl
    rw [hM]
    generalize dot2 k (bzCell .a120 angle0).b1 = x
    generalize dot2 k (bzCell .a120 angle0).b2 = y
    constructor
    · rintro ⟨h1, h2, h3⟩ m n
      have := hex_bound (3 / 2 * x) (3 / 2 * -y) (by rw [abs_mul]; norm_num; linarith)
        (by rw [abs_mul, abs_neg]; norm_num; linarith)
        (by rw [← mul_add, ← sub_eq_add_neg, abs_mul]; norm_num; linarith) m (-n)
      push_cast at this
      simp only
      linarith
    · intro h
      simp only at h ⊢
      refine ⟨abs_le.2 ⟨?_, ?_⟩, abs_le.2 ⟨?_, ?_⟩, abs_le.2 ⟨?_, ?_⟩⟩
      · have := h (-1) 0; norm_num at this; linarith
      · have := h 1 0; norm_num at this; linarith
      · have := h 0 (-1); norm_num at this; linarith
      · have := h 0 1; norm_num at this; linarith
      · have := h (-1) 1; norm_num at this; linarith
      · have := h 1 (-1); norm_num at this; linarith

/-! ### Every point is shown -/

/-- Coordinates in the basis of reciprocal lattice vectors. -/
theorem expand (angle : Angle) (angle0 : ℝ) (k : R2) :
    let c := bzCell angle angle0
    k = dot2 k c.a1 • c.b1 + dot2 k c.a2 • c.b2 := by
  intro c
  obtain ⟨e1, e2, e3, e4⟩ := bz_b angle angle0
  obtain ⟨-, -, -, -, -, hV⟩ := C30_translations (degrees angle) angle0
  have hs := sin_ne angle
  rw [← hV] at hs
  simp only [c]
  rw [e1, e2, e3, e4]
  generalize (translations (degrees angle) angle0).1 = a1 at *
  generalize (translations (degrees angle) angle0).2 = a2 at *
  have d1 : dot2 a1 ![a2 1, -a2 0] = a1 0 * a2 1 - a1 1 * a2 0 := by
    simp only [dot2, Matrix.cons_val_zero, Matrix.cons_val_one]; ring
  have d2 : dot2 a2 ![-a1 1, a1 0] = a1 0 * a2 1 - a1 1 * a2 0 := by
    simp only [dot2, Matrix.cons_val_zero, Matrix.cons_val_one]; ring
  simp only [reciprocals2, rotate_m90, rotate_90, d1, d2]
  ext i
  fin_cases i <;>
    simp only [Fin.zero_eta, Fin.mk_one, Pi.add_apply, Pi.smul_apply, smul_eq_mul, dot2, Matrix.cons_val_zero,
      Matrix.cons_val_one, Fin.isValue] <;>
    field_simp <;>
    ring

theorem hex_cover (u v : ℝ) : ∃ m n : ℤ, |2 * (u - m) - (v - n)| ≤ 1 ∧ |2 * (v - n) - (u - m)| ≤ 1 ∧ |(u - m) + (v - n)| ≤ 1 := by
  have key : ∀ u v : ℝ, 0 ≤ u → u < 1 → 0 ≤ v → v < 1 → ∃ m n : ℤ, |2 * (u - m) - (v - n)| ≤ 1 ∧
      |2 * (v - n) - (u - m)| ≤ 1 ∧ |(u - m) + (v - n)| ≤ 1 := by
    intro u v hu0 hu1 hv0 hv1
    by_cases h1 : 2 * v < u
    · by_cases h2 : 2 * u - v ≤ 1
      · exact ⟨0, 0, by push_cast; refine ⟨abs_le.2 ⟨?_, ?_⟩, abs_le.2 ⟨?_, ?_⟩, abs_le.2 ⟨?_, ?_⟩⟩ <;> linarith⟩
      · exact ⟨1, 0, by push_cast; refine ⟨abs_le.2 ⟨?_, ?_⟩, abs_le.2 ⟨?_, ?_⟩, abs_le.2 ⟨?_, ?_⟩⟩ <;> linarith⟩
    · by_cases h3 : 2 * u < v
      · by_cases h2 : 2 * v - u ≤ 1
        · exact ⟨0, 0, by push_cast; refine ⟨abs_le.2 ⟨?_, ?_⟩, abs_le.2 ⟨?_, ?_⟩, abs_le.2 ⟨?_, ?_⟩⟩ <;> linarith⟩
        · exact ⟨0, 1, by push_cast; refine ⟨abs_le.2 ⟨?_, ?_⟩, abs_le.2 ⟨?_, ?_⟩, abs_le.2 ⟨?_, ?_⟩⟩ <;> linarith⟩
      · by_cases h2 : u + v ≤ 1
        · exact ⟨0, 0, by push_cast; refine ⟨abs_le.2 ⟨?_, ?_⟩, abs_le.2 ⟨?_, ?_⟩, abs_le.2 ⟨?_, ?_⟩⟩ <;> linarith⟩
        · exact ⟨1, 1, by push_cast; refine ⟨abs_le.2 ⟨?_, ?_⟩, abs_le.2 ⟨?_, ?_⟩, abs_le.2 ⟨?_, ?_⟩⟩ <;> linarith⟩
  obtain ⟨m, n, h⟩ := key (Int.fract u) (Int.fract v) (Int.fract_nonneg u) (Int.fract_lt_one u) (Int.fract_nonneg v)
    (Int.fract_lt_one v)
  refine ⟨⌊u⌋ + m, ⌊v⌋ + n, ?_⟩
  have hu := Int.floor_add_fract u
  have hv := Int.floor_add_fract v
  push_cast
  rw [show u - ((⌊u⌋ : ℝ) + m) = Int.fract u - m by linarith, show v - ((⌊v⌋ : ℝ) + n) = Int.fract v - n by linarith]
  exact h

theorem dot2_lin (k b1 b2 b : R2) (m n : ℝ) : dot2 (k - m • b1 - n • b2) b = dot2 k b - m * dot2 b1 b - n * dot2 b2 b := by
  simp only [dot2, Pi.sub_apply, Pi.smul_apply, smul_eq_mul]
  ring

/-- C98: the image shows every point: one of its equivalents lies in the zone. -/
theorem C98_cover (angle : Angle) (angle0 : ℝ) (k : R2) :
    ∃ m n : ℤ, (bzCell angle angle0).inside
      (k - (m : ℝ) • (bzCell angle angle0).b1 - (n : ℝ) • (bzCell angle angle0).b2) := by
  obtain ⟨g1, g2, g3, -⟩ := gram angle angle0
  have he := expand angle angle0 k
  have h1 : dot2 k (bzCell angle angle0).b1 = dot2 k (bzCell angle angle0).a1 * (2 * (bzCell angle angle0).M) +
      dot2 k (bzCell angle angle0).a2 * dot2 (bzCell angle angle0).b1 (bzCell angle angle0).b2 := by
    conv_lhs => rw [he]
    rw [← g1]
    simp only [dot2, Pi.add_apply, Pi.smul_apply, smul_eq_mul]
    ring
  have h2 : dot2 k (bzCell angle angle0).b2 = dot2 k (bzCell angle angle0).a1 * dot2 (bzCell angle angle0).b1
      (bzCell angle angle0).b2 + dot2 k (bzCell angle angle0).a2 * (2 * (bzCell angle angle0).M) := by
    conv_lhs => rw [he]
    rw [← g2]
    simp only [dot2, Pi.add_apply, Pi.smul_apply, smul_eq_mul]
    ring
  simp only [inside_iff]
  generalize hk1 : dot2 k (bzCell angle angle0).a1 = u at h1 h2
  generalize hk2 : dot2 k (bzCell angle angle0).a2 = v at h1 h2
  rw [g3] at h1 h2
  have r1 : ∀ m n : ℝ, dot2 (k - m • (bzCell angle angle0).b1 - n • (bzCell angle angle0).b2) (bzCell angle angle0).b1 =
      dot2 k (bzCell angle angle0).b1 - m * (2 * (bzCell angle angle0).M) - n * dot2 (bzCell angle angle0).b1
        (bzCell angle angle0).b2 := by
    intro m n
    rw [dot2_lin, g1, dot2_comm (bzCell angle angle0).b2]
  have r2 : ∀ m n : ℝ, dot2 (k - m • (bzCell angle angle0).b1 - n • (bzCell angle angle0).b2) (bzCell angle angle0).b2 =
      dot2 k (bzCell angle angle0).b2 - m * dot2 (bzCell angle angle0).b1
        (bzCell angle angle0).b2 - n * (2 * (bzCell angle angle0).M) := by
    intro m n
    rw [dot2_lin, g2]
  simp only [dot_b3]
  cases angle
  · have hM : (bzCell .a60 angle0).M = 2 / 3 := rfl
    obtain ⟨m, n, c1, c2, c3⟩ := hex_cover u v
    refine ⟨m, n, ?_⟩
    simp only [r1, r2, h1, h2, g3, hM]
    rw [abs_le] at *
    constructor
    · constructor <;> linarith
    · rw [abs_le, abs_le]
      refine ⟨⟨?_, ?_⟩, ?_, ?_⟩ <;> linarith
  · have hM : (bzCell .a90 angle0).M = 1 / 2 := rfl
    refine ⟨round u, round v, ?_⟩
    have c1 := abs_le.1 (abs_sub_round u)
    have c2 := abs_le.1 (abs_sub_round v)
    simp only [r1, r2, h1, h2, g3, hM]
    rw [abs_le, abs_le]
    refine ⟨⟨?_, ?_⟩, ⟨?_, ?_⟩, ?_, ?_⟩ <;> linarith
  · have hM : (bzCell .a120 angle0).M = 2 / 3 := rfl
    obtain ⟨m, n, c1, c2, c3⟩ := hex_cover u (-v)
    refine ⟨m, -n, ?_⟩
    simp only [r1, r2, h1, h2, g3, hM]
    push_cast
    rw [abs_le] at *
    constructor
    · constructor <;> linarith
    · rw [abs_le, abs_le]
      refine ⟨⟨?_, ?_⟩, ?_, ?_⟩ <;> linarith

/-- C98: points inside the zone are shown only once. -/
theorem C98_unique (angle : Angle) (angle0 : ℝ) (k : R2)
    (h1 : |dot2 k (bzCell angle angle0).b1| < (bzCell angle angle0).M)
    (h2 : |dot2 k (bzCell angle angle0).b2| < (bzCell angle angle0).M)
    (h3 : |dot2 k (bzCell angle angle0).b3| < (bzCell angle angle0).M) (m n : ℤ)
    (h : (bzCell angle angle0).inside
      (k - (m : ℝ) • (bzCell angle angle0).b1 - (n : ℝ) • (bzCell angle angle0).b2)) : m = 0 ∧ n = 0 := by
  obtain ⟨-, -, -, d11, d12, d21, d22⟩ := gram angle angle0
  rw [C98_cell] at h
  have hs : ∀ t : ℝ, dot2 (t • k) (bzCell angle angle0).b1 = t * dot2 k (bzCell angle angle0).b1 ∧
      dot2 (t • k) (bzCell angle angle0).b2 = t * dot2 k (bzCell angle angle0).b2 ∧
      dot2 (t • k) (bzCell angle angle0).b3 = t * dot2 k (bzCell angle angle0).b3 := by
    intro t
    simp only [dot2, Pi.smul_apply, smul_eq_mul]
    refine ⟨?_, ?_, ?_⟩ <;> ring
  have hin := fun t : ℝ => (C98_cell angle angle0 (t • k)).1
  simp only [inside_iff, hs, closest_iff] at hin
  generalize (bzCell angle angle0).M = M at *
  generalize hb1 : (bzCell angle angle0).b1 = b1 at *
  generalize hb2 : (bzCell angle angle0).b2 = b2 at *
  generalize hb3 : (bzCell angle angle0).b3 = b3 at *
  set mu := max (max |dot2 k b1| |dot2 k b2|) |dot2 k b3| with hmu
  have hm : mu < M := max_lt (max_lt h1 h2) h3
  have hm0 : 0 ≤ mu := le_trans (abs_nonneg _) (le_max_right _ _)
  have l1 : |dot2 k b1| ≤ mu := le_trans (le_max_left _ _) (le_max_left _ _)
  have l2 : |dot2 k b2| ≤ mu := le_trans (le_max_right _ _) (le_max_left _ _)
  have l3 : |dot2 k b3| ≤ mu := le_max_right _ _
  have hM : 0 < M := lt_of_le_of_lt hm0 hm
  set t := 2 * M / (M + mu) with ht
  have ht0 : 0 ≤ t := by positivity
  have ht1 : 1 < t := by
    rw [ht, lt_div_iff₀ (by positivity)]
    linarith
  have htm : t * mu ≤ M := by
    rw [ht, div_mul_eq_mul_div, div_le_iff₀ (by positivity)]
    nlinarith
  have key : ∀ x : ℝ, |x| ≤ mu → |t * x| ≤ M := by
    intro x hx
    rw [abs_mul, abs_of_nonneg ht0]
    exact le_trans (mul_le_mul_of_nonneg_left hx ht0) htm
  have h4 := hin t ⟨key _ l1, key _ l2, key _ l3⟩ m n
  have h5 := h (-m) (-n)
  rw [show k - (m : ℝ) • b1 - (n : ℝ) • b2 - ((-m : ℤ) : ℝ) • b1 - ((-n : ℤ) : ℝ) • b2 = k by
    ext i
    simp only [Pi.sub_apply, Pi.smul_apply, smul_eq_mul]
    push_cast
    ring, dot2_shift] at h5
  have hQ : (m : ℝ) ^ 2 * dot2 b1 b1 + (n : ℝ) ^ 2 * dot2 b2 b2 + 2 * m * n * dot2 b1 b2 =
      ((m : ℝ) * b1 0 + n * b2 0) ^ 2 + ((m : ℝ) * b1 1 + n * b2 1) ^ 2 := by
    unfold dot2
    ring
  rw [hQ] at h4 h5
  have hz : ((m : ℝ) * b1 0 + n * b2 0) ^ 2 + ((m : ℝ) * b1 1 + n * b2 1) ^ 2 ≤ 0 := by
    nlinarith
  have z0 : (m : ℝ) * b1 0 + n * b2 0 = 0 := by
    have : ((m : ℝ) * b1 0 + n * b2 0) ^ 2 = 0 := le_antisymm (by nlinarith [sq_nonneg ((m : ℝ) * b1 1 + n * b2 1)]) (sq_nonneg _)
    exact pow_eq_zero_iff (two_ne_zero) |>.1 this
  have z1 : (m : ℝ) * b1 1 + n * b2 1 = 0 := by
    have : ((m : ℝ) * b1 1 + n * b2 1) ^ 2 = 0 := le_antisymm (by nlinarith [sq_nonneg ((m : ℝ) * b1 0 + n * b2 0)]) (sq_nonneg _)
    exact pow_eq_zero_iff (two_ne_zero) |>.1 this
  unfold dot2 at d11 d12 d21 d22
  constructor
  · have : (m : ℝ) = 0 := by
      linear_combination (bzCell angle angle0).a1 0 * z0 + (bzCell angle angle0).a1 1 * z1 - m * d11 - n * d12
    exact_mod_cast this
  · have : (n : ℝ) = 0 := by
      linear_combination (bzCell angle angle0).a2 0 * z0 + (bzCell angle angle0).a2 1 * z1 - m * d21 - n * d22
    exact_mod_cast this

/-! ### Frame of the image -/

theorem hex_frame (x y p q M : ℝ) (hx : |x| ≤ M) (hy : |y| ≤ M) (hxy : |x + y| ≤ M) :
    |x * p + y * q| ≤ max (max |p| |q|) |p - q| * M := by
  set B := max (max |p| |q|) |p - q| with hB
  have b1 := abs_le.1 (le_trans (le_max_left _ _) (le_max_left _ _) : |p| ≤ B)
  have b2 := abs_le.1 (le_trans (le_max_right _ _) (le_max_left _ _) : |q| ≤ B)
  have b3 := abs_le.1 (le_max_right _ _ : |p - q| ≤ B)
  have hB0 : 0 ≤ B := le_trans (abs_nonneg _) (le_max_right _ _)
  obtain ⟨x0, x1⟩ := abs_le.1 hx
  obtain ⟨y0, y1⟩ := abs_le.1 hy
  obtain ⟨z0, z1⟩ := abs_le.1 hxy
  have gen : ∀ s t r1 r2 : ℝ, 0 ≤ s → 0 ≤ t → s + t ≤ M → -B ≤ r1 → r1 ≤ B → -B ≤ r2 → r2 ≤ B → |s * r1 + t * r2| ≤ B * M := by
    intro s t r1 r2 hs ht hst h1 h2 h3 h4
    rw [abs_le]
    constructor <;> nlinarith [mul_nonneg hB0 hs, mul_nonneg hB0 ht, mul_le_mul_of_nonneg_left hst hB0,
      mul_le_mul_of_nonneg_left h1 hs, mul_le_mul_of_nonneg_left h2 hs, mul_le_mul_of_nonneg_left h3 ht,
      mul_le_mul_of_nonneg_left h4 ht]
  rcases le_total 0 x with hx' | hx' <;> rcases le_total 0 y with hy' | hy'
  · exact gen x y p q hx' hy' z1 b1.1 b1.2 b2.1 b2.2
  · rcases le_total 0 (x + y) with h | h
    · have := gen (x + y) (-y) p (p - q) h (by linarith) (by linarith) b1.1 b1.2 b3.1 b3.2
      rwa [show (x + y) * p + -y * (p - q) = x * p + y * q by ring] at this
    · have := gen (-(x + y)) x (-q) (p - q) (by linarith) hx' (by linarith) (by linarith [b2.2]) (by linarith [b2.1]) b3.1 b3.2
      rwa [show -(x + y) * -q + x * (p - q) = x * p + y * q by ring] at this
  · rcases le_total 0 (x + y) with h | h
    · have := gen (x + y) (-x) q (-(p - q)) h (by linarith) (by linarith) b2.1 b2.2 (by linarith [b3.2]) (by linarith [b3.1])
      rwa [show (x + y) * q + -x * -(p - q) = x * p + y * q by ring] at this
    · have := gen (-(x + y)) y (-p) (-(p - q)) (by linarith) hy' (by linarith) (by linarith [b1.2]) (by linarith [b1.1])
        (by linarith [b3.2]) (by linarith [b3.1])
      rwa [show -(x + y) * -p + y * -(p - q) = x * p + y * q by ring] at this
  · have := gen (-x) (-y) (-p) (-q) (by linarith) (by linarith) (by linarith) (by linarith [b1.2]) (by linarith [b1.1])
      (by linarith [b2.2]) (by linarith [b2.1])
    rwa [show -x * -p + -y * -q = x * p + y * q by ring] at this

/-- Coordinates in the basis of lattice vectors. -/
theorem expand' (angle : Angle) (angle0 : ℝ) (k : R2) :
    let c := bzCell angle angle0
    k = dot2 k c.b1 • c.a1 + dot2 k c.b2 • c.a2 := by
  intro c
  obtain ⟨e1, e2, e3, e4⟩ := bz_b angle angle0
  obtain ⟨-, -, -, -, -, hV⟩ := C30_translations (degrees angle) angle0
  have hs := sin_ne angle
  rw [← hV] at hs
  simp only [c]
  rw [e1, e2, e3, e4]
  generalize (translations (degrees angle) angle0).1 = a1 at *
  generalize (translations (degrees angle) angle0).2 = a2 at *
  have d1 : dot2 a1 ![a2 1, -a2 0] = a1 0 * a2 1 - a1 1 * a2 0 := by
    simp only [dot2, Matrix.cons_val_zero, Matrix.cons_val_one]; ring
  have d2 : dot2 a2 ![-a1 1, a1 0] = a1 0 * a2 1 - a1 1 * a2 0 := by
    simp only [dot2, Matrix.cons_val_zero, Matrix.cons_val_one]; ring
  simp only [reciprocals2, rotate_m90, rotate_90, d1, d2]
  clear d1 d2 hV
  generalize hW : a1 0 * a2 1 - a1 1 * a2 0 = W at *
  ext i
  fin_cases i <;>
    simp only [Fin.zero_eta, Fin.mk_one, Pi.add_apply, Pi.smul_apply, smul_eq_mul, dot2, Matrix.cons_val_zero,
      Matrix.cons_val_one, Fin.isValue] <;>
    field_simp <;>
    rw [← hW] <;>
    ring

/-- C98: the zone lies within the frame of the image (hexagonal lattices). -/
theorem C98_frame_partial (angle : Angle) (ha : angle ≠ .a90) (angle0 : ℝ) (k : R2) (h : (bzCell angle angle0).inside k)
    (x : Fin 2) : |k x| ≤ (bzCell angle angle0).kmax x := by
  rw [inside_iff, dot_b3] at h
  have he := congrFun (expand' angle angle0 k) x
  simp only [Pi.add_apply, Pi.smul_apply, smul_eq_mul] at he
  rw [he]
  cases angle
  · exact hex_frame _ _ _ _ _ h.1 h.2.1 h.2.2
  · exact absurd rfl ha
  · have := hex_frame (dot2 k (bzCell .a120 angle0).b1) (-dot2 k (bzCell .a120 angle0).b2) ((bzCell .a120 angle0).a1 x)
      (-(bzCell .a120 angle0).a2 x) _ h.1 (by rw [abs_neg]; exact h.2.1) (by rw [← sub_eq_add_neg]; exact h.2.2)
    rw [abs_neg, sub_neg_eq_add, neg_mul_neg] at this
    exact this

/-- C98: the same for square lattices with the first lattice vector along the x axis. -/
theorem C98_frame_square_partial (k : R2) (h : (bzCell .a90 0).inside k) (x : Fin 2) : |k x| ≤ (bzCell .a90 0).kmax x := by
  rw [inside_iff, dot_b3] at h
  have he := congrFun (expand' .a90 0 k) x
  simp only [Pi.add_apply, Pi.smul_apply, smul_eq_mul] at he
  rw [he]
  obtain ⟨t1, t2, -⟩ := C30_translations 90 0
  have h90 : (90 : ℝ) * deg = Real.pi / 2 := by unfold deg; ring
  have a1 : (bzCell .a90 0).a1 = ![1, 0] := by
    change (translations 90 0).1 = _
    rw [t1]
    simp
  have a2 : (bzCell .a90 0).a2 = ![0, 1] := by
    change (translations 90 0).2 = _
    rw [t2]
    simp [h90]
  have a3 : (bzCell .a90 0).a3 = ![1, 0] := a1
  simp only [Cell.kmax, a1, a2, a3]
  fin_cases x <;> simp
  · exact h.1
  · exact h.2.1

/-- C98 is violated for square lattices with another orientation: a corner of the zone lies outside the frame of the image
(here: lattice vectors along the diagonals). -/
theorem C98_frame_violated : ∃ k : R2, (bzCell .a90 45).inside k ∧ (bzCell .a90 45).kmax 1 < |k 1| := by
  obtain ⟨g1, g2, g3, d11, d12, d21, d22⟩ := gram .a90 45
  have hM : (bzCell .a90 45).M = 1 / 2 := rfl
  obtain ⟨t1, t2, -⟩ := C30_translations 90 45
  have h45 : (45 : ℝ) * deg = Real.pi / 4 := by unfold deg; ring
  have h135 : ((45 : ℝ) + 90) * deg = Real.pi - Real.pi / 4 := by unfold deg; ring
  have a1 : (bzCell .a90 45).a1 = ![√2 / 2, √2 / 2] := by
    change (translations 90 45).1 = _
    rw [t1, h45, Real.cos_pi_div_four, Real.sin_pi_div_four]
  have a2 : (bzCell .a90 45).a2 = ![-(√2 / 2), √2 / 2] := by
    change (translations 90 45).2 = _
    rw [t2, h135, Real.cos_pi_sub, Real.sin_pi_sub, Real.cos_pi_div_four, Real.sin_pi_div_four]
  have a3 : (bzCell .a90 45).a3 = ![√2 / 2, √2 / 2] := a1
  refine ⟨(1 / 2 : ℝ) • (bzCell .a90 45).a1 + (1 / 2 : ℝ) • (bzCell .a90 45).a2, ?_, ?_⟩
  · have l : ∀ b : R2, dot2 ((1 / 2 : ℝ) • (bzCell .a90 45).a1 + (1 / 2 : ℝ) • (bzCell .a90 45).a2) b =
        1 / 2 * dot2 (bzCell .a90 45).a1 b + 1 / 2 * dot2 (bzCell .a90 45).a2 b := by
      intro b
      simp only [dot2, Pi.add_apply, Pi.smul_apply, smul_eq_mul]
      ring
    rw [inside_iff, dot_b3]
    simp only [l, d11, d12, d21, d22, hM]
    norm_num
  · have h2 : 0 < √2 := by positivity
    simp only [Cell.kmax, a1, a2, a3, hM, Pi.add_apply, Pi.smul_apply, smul_eq_mul, Matrix.cons_val_one, Matrix.cons_val_fin_one,
      max_self]
    rw [abs_of_pos (by positivity), abs_of_pos (by positivity)]
    linarith

/-! ### Image -/

/-- Coordinates of the centres of the pixels: the frame is divided evenly, the first row is at the top. -/
theorem C98_pixel (c : Cell) (nkx nky i j : Nat) (hi : i < nky) (hj : j < nkx) :
    c.pixel nkx nky i j = ![c.kmax 0 * ((2 * j + 1) / nkx - 1), c.kmax 1 * (1 - (2 * i + 1) / nky)] := by
  have hx : (nkx : ℝ) ≠ 0 := Nat.cast_ne_zero.2 (by omega)
  have hy : (nky : ℝ) ≠ 0 := Nat.cast_ne_zero.2 (by omega)
  unfold Cell.pixel coord
  have e : ((nky - 1 - i : ℕ) : ℝ) = nky - 1 - i := by
    rw [Nat.cast_sub (by omega), Nat.cast_sub (by omega)]
    simp
  rw [e]
  ext x
  fin_cases x
  · simp only [Fin.zero_eta, Matrix.cons_val_zero]
    field_simp
    ring
  · simp only [Fin.mk_one, Matrix.cons_val_one, Matrix.cons_val_fin_one]
    field_simp
    ring

/-- C98: each pixel shows the interpolated data at its position in the zone; the other ones have the value `outside`. The
result does not depend on the number of processes. -/
theorem C98_image (procs : Nat) (hp : 0 < procs) (interp : Angle) (data : List (Int → Int → V)) (nk : Nat) (points : ℝ)
    (angle : Angle) (angle0 : ℝ) (outside : V) (even : Bool) :
    let c := bzCell angle angle0
    let nkx := pixels points even (c.kmax 0)
    let nky := pixels points even (c.kmax 1)
    ∃ image, toBZ procs interp data nk points angle angle0 outside even = some image ∧ image.length = nky * nkx ∧
      ∀ i j, i < nky → j < nkx →
        let k : R2 := ![c.kmax 0 * ((2 * j + 1) / nkx - 1), c.kmax 1 * (1 - (2 * i + 1) / nky)]
        (Closest c.b1 c.b2 k → image[i * nkx + j]? = some (interp2 interp noStk
          (data.getD (wedge data.length angle0 k) (fun _ _ => 0)) nk nk (dot2 k c.a1 * nk) (dot2 k c.a2 * nk))) ∧
        (¬Closest c.b1 c.b2 k → image[i * nkx + j]? = some outside) := by
  intro c nkx nky
  refine ⟨_, Verif.MPI.C02_parMap procs hp _ _, by simp [nkx, nky, c], ?_⟩
  intro i j hi hj k
  have hlt : i * nkx + j < nky * nkx := by
    calc i * nkx + j < i * nkx + nkx := by omega
      _ = (i + 1) * nkx := by ring
      _ ≤ nky * nkx := Nat.mul_le_mul_right _ hi
  have e1 : (i * nkx + j) / nkx = i := by
    rw [Nat.add_comm, Nat.add_mul_div_right _ _ (by omega), Nat.div_eq_of_lt hj, Nat.zero_add]
  have e2 : (i * nkx + j) % nkx = j := by
    rw [Nat.add_comm, Nat.add_mul_mod_self_right, Nat.mod_eq_of_lt hj]
  have hk := C98_pixel c nkx nky i j hi hj
  have hc := C98_cell angle angle0 k
  rw [List.getElem?_map, List.getElem?_range hlt, Option.map_some]
  change (_ → some (bzPixel c interp data nk angle0 outside nkx nky (i * nkx + j)) = _) ∧
    (_ → some (bzPixel c interp data nk angle0 outside nkx nky (i * nkx + j)) = _)
  have hk' : c.pixel nkx nky ((i * nkx + j) / nkx) ((i * nkx + j) % nkx) = k := by rw [e1, e2]; exact hk
  unfold bzPixel
  rw [hk']
  constructor
  · intro h
    rw [if_pos (hc.2 h)]
  · intro h
    rw [if_neg fun h' => h (hc.1 h')]

/-- C98: with `n` data sets, the zone is divided into `n` equal wedges, counted counterclockwise from the first lattice
vector. -/
theorem C98_wedge (ndata : Nat) (hn : 0 < ndata) (angle0 : ℝ) (k : R2) :
    wedge ndata angle0 k < ndata ∧ ∃ z : ℤ,
      angle0 * deg + 2 * Real.pi * ((wedge ndata angle0 k : ℝ) / ndata + z) ≤ Complex.arg ⟨k 0, k 1⟩ ∧
      Complex.arg ⟨k 0, k 1⟩ < angle0 * deg + 2 * Real.pi * (((wedge ndata angle0 k : ℝ) + 1) / ndata + z) := by
  have hn' : (0 : ℤ) < ndata := by omega
  have hr : (0 : ℝ) < ndata := by exact_mod_cast hn
  have hp := Real.pi_pos
  unfold wedge
  set f := ⌊(Complex.arg ⟨k 0, k 1⟩ - angle0 * (Real.pi / 180)) * (ndata / (2 * Real.pi))⌋ with hf
  have h0 := Int.emod_nonneg f hn'.ne'
  have h1 := Int.emod_lt_of_pos f hn'
  refine ⟨by omega, f / ndata, ?_⟩
  have hc : (((f % (ndata : ℤ)).toNat : ℕ) : ℝ) = ((f % (ndata : ℤ) : ℤ) : ℝ) := by
    rw [← Int.cast_natCast, Int.toNat_of_nonneg h0]
  have hd : ((f % (ndata : ℤ) : ℤ) : ℝ) + ndata * ((f / (ndata : ℤ) : ℤ) : ℝ) = f := by
    exact_mod_cast Int.emod_add_mul_ediv f ndata
  have l := Int.floor_le ((Complex.arg ⟨k 0, k 1⟩ - angle0 * (Real.pi / 180)) * (ndata / (2 * Real.pi)))
  have u := Int.lt_floor_add_one ((Complex.arg ⟨k 0, k 1⟩ - angle0 * (Real.pi / 180)) * (ndata / (2 * Real.pi)))
  rw [← hf] at l u
  rw [hc]
  unfold deg
  have e : (Complex.arg ⟨k 0, k 1⟩ - angle0 * (Real.pi / 180)) * (ndata / (2 * Real.pi)) * (2 * Real.pi / ndata) =
      Complex.arg ⟨k 0, k 1⟩ - angle0 * (Real.pi / 180) := by
    field_simp
  have hpos : 0 < 2 * Real.pi / ndata := by positivity
  have l' := mul_le_mul_of_nonneg_right l hpos.le
  have u' := mul_lt_mul_of_pos_right u hpos
  rw [e] at l' u'
  have c1 : 2 * Real.pi * (((f % (ndata : ℤ) : ℤ) : ℝ) / ndata + ((f / (ndata : ℤ) : ℤ) : ℝ)) = f * (2 * Real.pi / ndata) := by
    rw [← hd]
    field_simp
  have c2 : 2 * Real.pi * ((((f % (ndata : ℤ) : ℤ) : ℝ) + 1) / ndata + ((f / (ndata : ℤ) : ℤ) : ℝ)) =
      (f + 1) * (2 * Real.pi / ndata) := by
    rw [← hd]
    field_simp
    ring
  rw [c1, c2]
  constructor <;> linarith

/-- C98: the value shown is the same for all equivalent points. -/
theorem C98_equivalent (interp : Angle) (data : Int → Int → V) (nk : Nat) (angle : Angle) (angle0 : ℝ) (k : R2) (m n : ℤ) :
    let c := bzCell angle angle0
    let k' := k + (m : ℝ) • c.b1 + (n : ℝ) • c.b2
    interp2 interp noStk data nk nk (dot2 k' c.a1 * nk) (dot2 k' c.a2 * nk) =
      interp2 interp noStk data nk nk (dot2 k c.a1 * nk) (dot2 k c.a2 * nk) := by
  intro c k'
  obtain ⟨-, -, -, d11, d12, d21, d22⟩ := gram angle angle0
  have h1 : dot2 k' c.a1 * nk = dot2 k c.a1 * nk + (((nk : ℤ) * m : ℤ) : ℝ) := by
    have : dot2 k' c.a1 = dot2 k c.a1 + m * dot2 c.a1 c.b1 + n * dot2 c.a1 c.b2 := by
      simp only [k', dot2, Pi.add_apply, Pi.smul_apply, smul_eq_mul]
      ring
    rw [this, d11, d12]
    push_cast
    ring
  have h2 : dot2 k' c.a2 * nk = dot2 k c.a2 * nk + (((nk : ℤ) * n : ℤ) : ℝ) := by
    have : dot2 k' c.a2 = dot2 k c.a2 + m * dot2 c.a2 c.b1 + n * dot2 c.a2 c.b2 := by
      simp only [k', dot2, Pi.add_apply, Pi.smul_apply, smul_eq_mul]
      ring
    rw [this, d21, d22]
    push_cast
    ring
  rw [h1, h2]
  exact C23_periodic interp noStk data nk nk m n _ _

/-! ### Examples -/

/-- The hypotheses of `C98_unique` and `C98_frame_partial` are met by the origin. -/
example : |dot2 0 (bzCell .a120 30).b1| < (bzCell .a120 30).M ∧ (bzCell .a120 30).inside 0 ∧ Angle.a120 ≠ .a90 := by
  refine ⟨?_, ?_, by decide⟩
  · simp [dot2, bzCell]
  · rw [inside_iff]
    simp [dot2, bzCell]
    norm_num

/-- A corner of the hexagon: also in the zone, but shown several times. -/
example : (bzCell .a60 0).inside ((2 / 3 : ℝ) • (bzCell .a60 0).a1) := by
  obtain ⟨-, -, -, d11, d12, -, -⟩ := gram .a60 0
  have hM : (bzCell .a60 0).M = 2 / 3 := rfl
  have l : ∀ b : R2, dot2 ((2 / 3 : ℝ) • (bzCell .a60 0).a1) b = 2 / 3 * dot2 (bzCell .a60 0).a1 b := by
    intro b
    simp only [dot2, Pi.smul_apply, smul_eq_mul]
    ring
  rw [inside_iff, dot_b3]
  simp only [l, d11, d12, hM]
  norm_num [abs_of_pos]

/-- Six wedges: the direction of the x axis belongs to the first one, its opposite to the fourth one. -/
example : wedge 6 0 ![1, 0] = 0 ∧ wedge 6 0 ![-1, 0] = 3 := by
  have hp := Real.pi_ne_zero
  constructor
  · have : Complex.arg ⟨1, 0⟩ = 0 := Complex.arg_one
    simp [wedge, this]
  · have : Complex.arg ⟨-1, 0⟩ = Real.pi := by
      rw [show (⟨-1, 0⟩ : ℂ) = -1 by apply Complex.ext <;> simp]
      exact Complex.arg_neg_one
    have e : Real.pi * (6 / (2 * Real.pi)) = 3 := by field_simp; norm_num
    simp [wedge, this, e]

example : ∃ image, toBZ (V := ℝ) 4 .a60 [fun i j => i + j] 12 100 .a120 0 0 true = some image :=
  let ⟨image, h, _⟩ := C98_image (V := ℝ) 4 (by decide) .a60 [fun i j => i + j] 12 100 .a120 0 0 true
  ⟨image, h⟩

end Verif.Plot
