import Verif.Interp.Lemmas
import Verif.Stack.Props
import Mathlib.Topology.LocallyFinite
import Mathlib.Analysis.SpecialFunctions.Complex.Arg
import Mathlib.Topology.Algebra.Module.Basic

/-! # Properties C23-C25 -/

namespace Verif.Interp

variable {K : Type} [Field K] [LinearOrder K] [IsStrictOrderedRing K] [FloorRing K]
variable {V : Type} [AddCommGroup V] [Module K V]

/-! ## C23 -/

/-- C23, two axes: at integer arguments (of any sign and size) the interpolant is the data point
with indices taken modulo the shape. -/
theorem C23_mesh_points (angle : Angle) (data : Int → Int → V) (N M : Int) (i j : Int) :
    interp2 angle noStk data N M (i : K) (j : K) = data (i % N) (j % M) := by
  have h0 : (0 : K) ≤ 1 := zero_le_one
  cases angle
  · have := (cell60 (K := K) data N M i j 0 0 le_rfl h0 le_rfl h0).1 (by simp)
    simpa [interp2, ext] using this
  · have := cell90 (K := K) data N M i j 0 0 le_rfl h0 le_rfl h0
    simpa [interp2, ext] using this
  · have := (cell120 (K := K) data N M i j 0 0 le_rfl h0 le_rfl h0).1 le_rfl
    simpa [interp2, ext] using this

/-- C23, one axis. -/
theorem C23_mesh_points_1d (data : Int → V) (N : Int) (i : Int) :
    interp1 noStk data N (i : K) = data (i % N) := by
  have := cell1 (K := K) data N i 0 le_rfl zero_le_one
  simpa [ext1] using this

/-- C23: the interpolant is periodic with the shape of the data, with or without `period`. -/
theorem C23_periodic (angle : Angle) (stk : Stk V) (data : Int → Int → V) (N M : Int) (k l : Int)
    (n m : K) :
    interp2 angle stk data N M (n + (N * k : Int)) (m + (M * l : Int)) =
      interp2 angle stk data N M n m := by
  cases angle <;> simp only [interp2, interp60, interp90, interp120, split_add_period]

/-- C23: periodicity, one axis. -/
theorem C23_periodic_1d (stk : Stk V) (data : Int → V) (N : Int) (k : Int) (n : K) :
    interp1 stk data N (n + (N * k : Int)) = interp1 stk data N n := by
  simp only [interp1, split_add_period]

/-- What `stack` guarantees (C22): values are changed by multiples of the period only. -/
def ShiftsBy (L : V) (stk : Stk V) : Prop := ∀ n v i, ∃ z : ℤ, stk n v i = v i + z • L

/-- C23 with `period`: at integer arguments the interpolant is the data point up to a multiple of
the period (there may be no better, as `stack` moves the points into a common window). -/
theorem C23_mesh_points_period (angle : Angle) (L : V) (stk : Stk V) (hs : ShiftsBy L stk)
    (data : Int → Int → V) (N M : Int) (i j : Int) :
    ∃ z : ℤ, interp2 angle stk data N M (i : K) (j : K) = data (i % N) (j % M) + z • L := by
  have hsp : ∀ (x N : Int), split (x : K) N = (x % N, (0 : K)) := by
    intro x N
    have := split_add (K := K) (i := x) (u := 0) le_rfl one_pos N
    simpa using this
  cases angle
  · simp only [interp2, interp60, hsp, add_zero]
    rw [if_neg (not_lt.2 zero_le_one)]
    obtain ⟨z, hz⟩ := hs 3 ![data ((i % N + 1) % N) (j % M), data (i % N) ((j % M + 1) % M),
      data (i % N) (j % M)] 2
    refine ⟨z, ?_⟩
    rw [hz]; simp
  · simp only [interp2, interp90, hsp]
    obtain ⟨z, hz⟩ := hs 4 ![data (i % N) (j % M), data ((i % N + 1) % N) (j % M),
      data ((i % N + 1) % N) ((j % M + 1) % M), data (i % N) ((j % M + 1) % M)] 0
    refine ⟨z, ?_⟩
    rw [hz]; simp
  · simp only [interp2, interp120, hsp]
    rw [if_neg (lt_irrefl _)]
    obtain ⟨z, hz⟩ := hs 3 ![data (i % N) (j % M), data ((i % N + 1) % N) ((j % M + 1) % M),
      data (i % N) ((j % M + 1) % M)] 0
    refine ⟨z, ?_⟩
    rw [hz]; simp

/-- The call of `stack` made for `period=L`; `sorter` stands for `np.argsort`. -/
def periodStk (L : K) (sorter : (n : Nat) → (Fin n → K) → (Fin n → Fin n)) : Stk K
  | 0, v => v
  | n + 1, v => Verif.Stack.stack v L (sorter (n + 1) fun i => Verif.Stack.fmod (v i) L)

/-- The hypothesis of `C23_mesh_points_period` is what C22 provides. -/
theorem C23_period_shifts (L : K) (hL : 0 < L)
    (sorter : (n : Nat) → (Fin n → K) → (Fin n → Fin n))
    (hs : ∀ n p, Verif.Stack.IsArgsort p (sorter n p)) :
    ShiftsBy L (periodStk L sorter) := by
  intro n v i
  cases n with
  | zero => exact i.elim0
  | succ n =>
    obtain ⟨z, hz⟩ := (Verif.Stack.C22_stack v L hL _ (hs _ _)).1 i
    refine ⟨z, ?_⟩
    rw [zsmul_eq_mul]; exact hz

/-- `elphmod/bravais.py` 801-808: complex data in polar coordinates. -/
noncomputable def interpPolar (angle : Angle) (stk : Stk ℝ) (data : Int → Int → ℂ) (N M : Int)
    (n m : ℝ) : ℂ :=
  let r := interp2 angle noStk (fun i j => ‖data i j‖) N M n m
  let p := interp2 angle stk (fun i j => Complex.arg (data i j)) N M n m
  (r : ℂ) * Complex.exp (Complex.I * p)

/-- C23 with `polar=True`: exact at mesh points. -/
theorem C23_mesh_points_polar (angle : Angle) (stk : Stk ℝ) (hs : ShiftsBy (2 * Real.pi) stk)
    (data : Int → Int → ℂ) (N M : Int) (i j : Int) :
    interpPolar angle stk data N M i j = data (i % N) (j % M) := by
  unfold interpPolar
  simp only
  rw [C23_mesh_points]
  obtain ⟨z, hz⟩ := C23_mesh_points_period (K := ℝ) angle (2 * Real.pi) stk hs
    (fun i j => Complex.arg (data i j)) N M i j
  rw [hz]
  set w := data (i % N) (j % M)
  have e : Complex.I * (((Complex.arg w + z • (2 * Real.pi) : ℝ)) : ℂ) =
      Complex.arg w * Complex.I + z * (2 * Real.pi * Complex.I) := by
    push_cast [zsmul_eq_mul]; ring
  rw [e, Complex.exp_add, Complex.exp_int_mul_two_pi_mul_I, mul_one]
  exact Complex.norm_mul_exp_arg_mul_I w

example : interp2 (K := ℚ) .a60 noStk (fun i j => (3 * i + j : ℚ)) 2 3 (-5) 7 = 4 := by
  have := C23_mesh_points (K := ℚ) .a60 (fun i j => (3 * i + j : ℚ)) 2 3 (-5) 7
  norm_num at this; exact this

/-! ## C24 -/

/-- C24: the interpolated value is a convex combination of the data at the four corners of the
cell (`⌊n⌋` or `⌊n⌋ + 1`, `⌊m⌋` or `⌊m⌋ + 1`). -/
theorem C24_convex (angle : Angle) (data : Int → Int → V) (N M : Int) (n m : K) :
    ∃ w00 w10 w01 w11 : K, 0 ≤ w00 ∧ 0 ≤ w10 ∧ 0 ≤ w01 ∧ 0 ≤ w11 ∧ w00 + w10 + w01 + w11 = 1 ∧
      interp2 angle noStk data N M n m =
        w00 • data (⌊n⌋ % N) (⌊m⌋ % M) + w10 • data ((⌊n⌋ + 1) % N) (⌊m⌋ % M) +
        w01 • data (⌊n⌋ % N) ((⌊m⌋ + 1) % M) + w11 • data ((⌊n⌋ + 1) % N) ((⌊m⌋ + 1) % M) := by
  have hn := Int.floor_add_fract n
  have hm := Int.floor_add_fract m
  set i := ⌊n⌋
  set j := ⌊m⌋
  set u := Int.fract n
  set v := Int.fract m
  have hu0 : 0 ≤ u := Int.fract_nonneg n
  have hu1 : u ≤ 1 := (Int.fract_lt_one n).le
  have hv0 : 0 ≤ v := Int.fract_nonneg m
  have hv1 : v ≤ 1 := (Int.fract_lt_one m).le
  rw [← hn, ← hm]
  cases angle
  · obtain ⟨c1, c2⟩ := cell60 data N M i j u v hu0 hu1 hv0 hv1
    rcases le_total (u + v) 1 with h | h
    · refine ⟨1 - u - v, u, v, 0, by linarith, hu0, hv0, le_rfl, by ring, ?_⟩
      rw [interp2, c1 h]; simp only [ext]; module
    · refine ⟨0, 1 - v, 1 - u, u + v - 1, le_rfl, by linarith, by linarith, by linarith, by ring, ?_⟩
      rw [interp2, c2 h]; simp only [ext]; module
  · refine ⟨(1 - u) * (1 - v), u * (1 - v), (1 - u) * v, u * v,
      mul_nonneg (by linarith) (by linarith), mul_nonneg hu0 (by linarith),
      mul_nonneg (by linarith) hv0, mul_nonneg hu0 hv0, by ring, ?_⟩
    rw [interp2, cell90 data N M i j u v hu0 hu1 hv0 hv1]; simp only [ext]; module
  · obtain ⟨c1, c2⟩ := cell120 data N M i j u v hu0 hu1 hv0 hv1
    rcases le_total v u with h | h
    · refine ⟨1 - u, u - v, 0, v, by linarith, by linarith, le_rfl, hv0, by ring, ?_⟩
      rw [interp2, c1 h]; simp only [ext]; module
    · refine ⟨1 - v, 0, v - u, u, by linarith, le_rfl, by linarith, hu0, by ring, ?_⟩
      rw [interp2, c2 h]; simp only [ext]; module

/-- C24, one axis. -/
theorem C24_convex_1d (data : Int → V) (N : Int) (n : K) :
    ∃ w0 w1 : K, 0 ≤ w0 ∧ 0 ≤ w1 ∧ w0 + w1 = 1 ∧
      interp1 noStk data N n = w0 • data (⌊n⌋ % N) + w1 • data ((⌊n⌋ + 1) % N) := by
  have hn := Int.floor_add_fract n
  refine ⟨1 - Int.fract n, Int.fract n, by linarith [Int.fract_lt_one n], Int.fract_nonneg n,
    by ring, ?_⟩
  conv_lhs => rw [← hn]
  rw [cell1 data N ⌊n⌋ _ (Int.fract_nonneg n) (Int.fract_lt_one n).le]
  rfl

/-- C24: real values never leave the range of the data. -/
theorem C24_range (angle : Angle) (data : Int → Int → K) (N M : Int) (lo hi : K)
    (hN : 0 < N) (hM : 0 < M)
    (h : ∀ i j, 0 ≤ i → i < N → 0 ≤ j → j < M → lo ≤ data i j ∧ data i j ≤ hi) (n m : K) :
    lo ≤ interp2 angle noStk data N M n m ∧ interp2 angle noStk data N M n m ≤ hi := by
  have h' : ∀ i j : Int, lo ≤ data (i % N) (j % M) ∧ data (i % N) (j % M) ≤ hi := fun i j =>
    h _ _ (Int.emod_nonneg _ hN.ne') (Int.emod_lt_of_pos _ hN) (Int.emod_nonneg _ hM.ne')
      (Int.emod_lt_of_pos _ hM)
  obtain ⟨a, b, c, d, ha, hb, hc, hd, hs, he⟩ := C24_convex angle data N M n m
  rw [he]
  simp only [smul_eq_mul]
  obtain ⟨p1, q1⟩ := h' ⌊n⌋ ⌊m⌋
  obtain ⟨p2, q2⟩ := h' (⌊n⌋ + 1) ⌊m⌋
  obtain ⟨p3, q3⟩ := h' ⌊n⌋ (⌊m⌋ + 1)
  obtain ⟨p4, q4⟩ := h' (⌊n⌋ + 1) (⌊m⌋ + 1)
  have e1 : lo = a * lo + b * lo + c * lo + d * lo := by rw [← add_mul, ← add_mul, ← add_mul, hs, one_mul]
  have e2 : hi = a * hi + b * hi + c * hi + d * hi := by rw [← add_mul, ← add_mul, ← add_mul, hs, one_mul]
  constructor
  · rw [e1]
    have := mul_le_mul_of_nonneg_left p1 ha
    have := mul_le_mul_of_nonneg_left p2 hb
    have := mul_le_mul_of_nonneg_left p3 hc
    have := mul_le_mul_of_nonneg_left p4 hd
    linarith
  · rw [e2]
    have := mul_le_mul_of_nonneg_left q1 ha
    have := mul_le_mul_of_nonneg_left q2 hb
    have := mul_le_mul_of_nonneg_left q3 hc
    have := mul_le_mul_of_nonneg_left q4 hd
    linarith

/-- C24: if the data at the corners of a cell is an affine function of the indices, this function
is reproduced everywhere in the (closed) cell. -/
theorem C24_affine (angle : Angle) (data : Int → Int → V) (N M : Int) (i j : Int) (c0 c1 c2 : V)
    (h : ∀ a ∈ [i, i + 1], ∀ b ∈ [j, j + 1],
      data (a % N) (b % M) = c0 + (a : K) • c1 + (b : K) • c2)
    (n m : K) (hn : (i : K) ≤ n ∧ n ≤ i + 1) (hm : (j : K) ≤ m ∧ m ≤ j + 1) :
    interp2 angle noStk data N M n m = c0 + n • c1 + m • c2 := by
  obtain ⟨u, rfl⟩ : ∃ u, n = i + u := ⟨n - i, by ring⟩
  obtain ⟨v, rfl⟩ : ∃ v, m = j + v := ⟨m - j, by ring⟩
  have hu0 : 0 ≤ u := by linarith [hn.1]
  have hu1 : u ≤ 1 := by linarith [hn.2]
  have hv0 : 0 ≤ v := by linarith [hm.1]
  have hv1 : v ≤ 1 := by linarith [hm.2]
  have e00 := h i (by simp) j (by simp)
  have e10 := h (i + 1) (by simp) j (by simp)
  have e01 := h i (by simp) (j + 1) (by simp)
  have e11 := h (i + 1) (by simp) (j + 1) (by simp)
  push_cast at e10 e01 e11
  cases angle
  · obtain ⟨d1, d2⟩ := cell60 data N M i j u v hu0 hu1 hv0 hv1
    rcases le_total (u + v) 1 with h | h
    · rw [interp2, d1 h]; simp only [ext, e00, e10, e01]; module
    · rw [interp2, d2 h]; simp only [ext, e11, e10, e01]; module
  · rw [interp2, cell90 data N M i j u v hu0 hu1 hv0 hv1]
    simp only [ext, e00, e10, e01, e11]; module
  · obtain ⟨d1, d2⟩ := cell120 data N M i j u v hu0 hu1 hv0 hv1
    rcases le_total v u with h | h
    · rw [interp2, d1 h]; simp only [ext, e00, e10, e11]; module
    · rw [interp2, d2 h]; simp only [ext, e00, e01, e11]; module

/-- Closed halves of the unit cells. -/
def tri (angle : Angle) (t : Int × Int × Bool) : Set (ℝ × ℝ) :=
  {p | ((t.1 : ℝ) ≤ p.1 ∧ p.1 ≤ t.1 + 1) ∧ ((t.2.1 : ℝ) ≤ p.2 ∧ p.2 ≤ t.2.1 + 1) ∧
    match angle, t.2.2 with
    | .a60, false => p.1 + p.2 ≤ t.1 + t.2.1 + 1
    | .a60, true => (t.1 + t.2.1 + 1 : ℝ) ≤ p.1 + p.2
    | .a90, _ => True
    | .a120, false => p.2 - t.2.1 ≤ p.1 - t.1
    | .a120, true => p.1 - t.1 ≤ p.2 - t.2.1}

theorem tri_closed (angle : Angle) (t : Int × Int × Bool) : IsClosed (tri angle t) := by
  obtain ⟨i, j, b⟩ := t
  have hbox : IsClosed {p : ℝ × ℝ | ((i : ℝ) ≤ p.1 ∧ p.1 ≤ i + 1) ∧ ((j : ℝ) ≤ p.2 ∧ p.2 ≤ j + 1)} :=
    ((isClosed_le continuous_const continuous_fst).inter
      (isClosed_le continuous_fst continuous_const)).inter
    ((isClosed_le continuous_const continuous_snd).inter
      (isClosed_le continuous_snd continuous_const))
  have e : ∀ (Q : ℝ × ℝ → Prop), IsClosed {p | Q p} →
      IsClosed {p : ℝ × ℝ | ((i : ℝ) ≤ p.1 ∧ p.1 ≤ i + 1) ∧ ((j : ℝ) ≤ p.2 ∧ p.2 ≤ j + 1) ∧ Q p} := by
    intro Q hQ
    have := hbox.inter hQ
    convert this using 1
    ext p
    simp only [Set.mem_setOf_eq, Set.mem_inter_iff]
    tauto
  cases angle <;> cases b <;> apply e
  · exact isClosed_le (by fun_prop) (by fun_prop)
  · exact isClosed_le (by fun_prop) (by fun_prop)
  · exact isClosed_univ
  · exact isClosed_univ
  · exact isClosed_le (by fun_prop) (by fun_prop)
  · exact isClosed_le (by fun_prop) (by fun_prop)

theorem tri_locallyFinite (angle : Angle) : LocallyFinite (tri angle) := by
  intro x
  refine ⟨{p | |p.1 - x.1| < 1 ∧ |p.2 - x.2| < 1}, ?_, ?_⟩
  · apply IsOpen.mem_nhds
    · exact (isOpen_lt (f := fun p : ℝ × ℝ => |p.1 - x.1|) (by fun_prop) continuous_const).inter
        (isOpen_lt (f := fun p : ℝ × ℝ => |p.2 - x.2|) (by fun_prop) continuous_const)
    · simp
  · refine Set.Finite.subset
      (((Set.finite_Icc (⌊x.1⌋ - 2) (⌊x.1⌋ + 2)).prod
        ((Set.finite_Icc (⌊x.2⌋ - 2) (⌊x.2⌋ + 2)).prod (Set.finite_univ (α := Bool))))) ?_
    rintro ⟨i, j, b⟩ ⟨p, ⟨⟨h1, h2⟩, ⟨h3, h4⟩, _⟩, h5, h6⟩
    rw [abs_lt] at h5 h6
    have f1 := Int.floor_le x.1
    have f2 := Int.lt_floor_add_one x.1
    have f3 := Int.floor_le x.2
    have f4 := Int.lt_floor_add_one x.2
    simp only at h1 h2 h3 h4
    have a1 : (i : ℝ) < ⌊x.1⌋ + 3 := by linarith [h5.2]
    have a2 : (⌊x.1⌋ : ℝ) - 3 < i := by linarith [h5.1]
    have a3 : (j : ℝ) < ⌊x.2⌋ + 3 := by linarith [h6.2]
    have a4 : (⌊x.2⌋ : ℝ) - 3 < j := by linarith [h6.1]
    norm_cast at a1 a2 a3 a4
    simp only [Set.mem_prod, Set.mem_Icc, Set.mem_univ, and_true]
    refine ⟨⟨?_, ?_⟩, ?_, ?_⟩ <;> omega

theorem tri_cover (angle : Angle) : (⋃ t, tri angle t) = Set.univ := by
  rw [Set.eq_univ_iff_forall]
  intro p
  rw [Set.mem_iUnion]
  have f1 := Int.floor_le p.1
  have f2 := (Int.lt_floor_add_one p.1).le
  have f3 := Int.floor_le p.2
  have f4 := (Int.lt_floor_add_one p.2).le
  cases angle
  · rcases le_total (p.1 + p.2) (⌊p.1⌋ + ⌊p.2⌋ + 1) with h | h
    · exact ⟨(⌊p.1⌋, ⌊p.2⌋, false), ⟨f1, f2⟩, ⟨f3, f4⟩, h⟩
    · exact ⟨(⌊p.1⌋, ⌊p.2⌋, true), ⟨f1, f2⟩, ⟨f3, f4⟩, h⟩
  · exact ⟨(⌊p.1⌋, ⌊p.2⌋, false), ⟨f1, f2⟩, ⟨f3, f4⟩, trivial⟩
  · rcases le_total (p.2 - ⌊p.2⌋) (p.1 - ⌊p.1⌋) with h | h
    · exact ⟨(⌊p.1⌋, ⌊p.2⌋, false), ⟨f1, f2⟩, ⟨f3, f4⟩, h⟩
    · exact ⟨(⌊p.1⌋, ⌊p.2⌋, true), ⟨f1, f2⟩, ⟨f3, f4⟩, h⟩

/-- C24: the interpolant is continuous, across cell boundaries and diagonals, on all of the
plane. -/
theorem C24_continuous {V : Type} [AddCommGroup V] [Module ℝ V] [TopologicalSpace V]
    [ContinuousAdd V] [ContinuousSMul ℝ V] (angle : Angle) (data : Int → Int → V) (N M : Int) :
    Continuous fun p : ℝ × ℝ => interp2 angle noStk data N M p.1 p.2 := by
  refine (tri_locallyFinite angle).continuous (tri_cover angle) (tri_closed angle) ?_
  rintro ⟨i, j, b⟩
  -- on every closed half cell, the interpolant is given by one polynomial
  have key : ∃ g : ℝ × ℝ → V, Continuous g ∧
      Set.EqOn (fun p : ℝ × ℝ => interp2 angle noStk data N M p.1 p.2) g (tri angle (i, j, b)) := by
    have hx : ∀ x : ℝ, x = i + (x - i) := fun x => by ring
    have hy : ∀ x : ℝ, x = j + (x - j) := fun x => by ring
    cases angle <;> cases b
    · refine ⟨fun p => (p.1 - i) • ext data N M (i + 1) j + (p.2 - j) • ext data N M i (j + 1) +
        (1 - (p.1 - i) - (p.2 - j)) • ext data N M i j, by fun_prop, ?_⟩
      rintro p ⟨⟨h1, h2⟩, ⟨h3, h4⟩, h5⟩
      simp only at h1 h2 h3 h4 h5 ⊢
      have := (cell60 data N M i j (p.1 - i) (p.2 - j) (by linarith) (by linarith) (by linarith)
        (by linarith)).1 (by linarith)
      rw [← hx, ← hy] at this
      exact this
    · refine ⟨fun p => (1 - (p.2 - j)) • ext data N M (i + 1) j +
        (1 - (p.1 - i)) • ext data N M i (j + 1) +
        ((p.1 - i) + (p.2 - j) - 1) • ext data N M (i + 1) (j + 1), by fun_prop, ?_⟩
      rintro p ⟨⟨h1, h2⟩, ⟨h3, h4⟩, h5⟩
      simp only at h1 h2 h3 h4 h5 ⊢
      have := (cell60 data N M i j (p.1 - i) (p.2 - j) (by linarith) (by linarith) (by linarith)
        (by linarith)).2 (by linarith)
      rw [← hx, ← hy] at this
      exact this
    all_goals first
    | (refine ⟨fun p => ((1 - (p.1 - i)) * (1 - (p.2 - j))) • ext data N M i j +
        ((p.1 - i) * (1 - (p.2 - j))) • ext data N M (i + 1) j +
        ((p.1 - i) * (p.2 - j)) • ext data N M (i + 1) (j + 1) +
        ((1 - (p.1 - i)) * (p.2 - j)) • ext data N M i (j + 1), by fun_prop, ?_⟩
       rintro p ⟨⟨h1, h2⟩, ⟨h3, h4⟩, h5⟩
       simp only at h1 h2 h3 h4 ⊢
       have := cell90 data N M i j (p.1 - i) (p.2 - j) (by linarith) (by linarith) (by linarith)
        (by linarith)
       rw [← hx, ← hy] at this
       exact this)
    | (refine ⟨fun p => (1 - (p.1 - i)) • ext data N M i j +
        (p.2 - j) • ext data N M (i + 1) (j + 1) +
        ((p.1 - i) - (p.2 - j)) • ext data N M (i + 1) j, by fun_prop, ?_⟩
       rintro p ⟨⟨h1, h2⟩, ⟨h3, h4⟩, h5⟩
       simp only at h1 h2 h3 h4 h5 ⊢
       have := (cell120 data N M i j (p.1 - i) (p.2 - j) (by linarith) (by linarith) (by linarith)
        (by linarith)).1 (by linarith)
       rw [← hx, ← hy] at this
       exact this)
    | (refine ⟨fun p => (1 - (p.2 - j)) • ext data N M i j +
        (p.1 - i) • ext data N M (i + 1) (j + 1) +
        ((p.2 - j) - (p.1 - i)) • ext data N M i (j + 1), by fun_prop, ?_⟩
       rintro p ⟨⟨h1, h2⟩, ⟨h3, h4⟩, h5⟩
       simp only at h1 h2 h3 h4 h5 ⊢
       have := (cell120 data N M i j (p.1 - i) (p.2 - j) (by linarith) (by linarith) (by linarith)
        (by linarith)).2 (by linarith)
       rw [← hx, ← hy] at this
       exact this)
  obtain ⟨g, hg, he⟩ := key
  exact hg.continuousOn.congr he

example : interp2 (K := ℚ) .a60 noStk (fun i j => (if (i, j) = (1, 1) then 12 else 0 : ℚ)) 2 2
    (3 / 4) (1 / 2) = 3 := by decide +kernel

/-! ## C25 -/

/-- C25: `resize` returns on any number of processes the interpolant at the points of the new mesh,
in row-major order. -/
theorem C25_resize (procs : Nat) (hp : 0 < procs) (angle : Angle) (stk : Stk V) (periodic : Bool)
    (data : Int → Int → V) (N M S0 S1 : Nat) :
    ∃ new, resize2 (K := K) procs angle stk periodic data N M S0 S1 = some new ∧
      new.length = S0 * S1 ∧
      ∀ a b, a < S0 → b < S1 → new[a * S1 + b]? =
        some (interp2 angle stk data N M ((a : K) * scale periodic N S0)
          ((b : K) * scale periodic M S1)) := by
  obtain ⟨sizes, bounds, h1, h2, _⟩ := Verif.MPI.C02_bounds_ranges (S0 * S1) procs hp
  refine ⟨(List.range (S0 * S1)).map fun m : Nat =>
        interp2 angle stk data N M (((m / S1 : Nat) : K) * scale periodic N S0)
          (((m % S1 : Nat) : K) * scale periodic M S1), ?_, by simp, ?_⟩
  · unfold resize2
    rw [h1, Option.map_some, ← h2]
    simp only [Verif.MPI.gatherv, List.flatMap_def, List.map_flatten, List.map_map]
    rfl
  · intro a b ha hb
    have hlt : a * S1 + b < S0 * S1 := by
      calc a * S1 + b < a * S1 + S1 := by omega
        _ = (a + 1) * S1 := by ring
        _ ≤ S0 * S1 := Nat.mul_le_mul_right _ ha
    rw [List.getElem?_map, List.getElem?_range hlt, Option.map_some]
    have e1 : (a * S1 + b) / S1 = a := by
      rw [Nat.add_comm, Nat.add_mul_div_right _ _ (by omega), Nat.div_eq_of_lt hb, Nat.zero_add]
    have e2 : (a * S1 + b) % S1 = b := by
      rw [Nat.add_comm, Nat.add_mul_mod_self_right, Nat.mod_eq_of_lt hb]
    rw [e1, e2]

example := C25_resize (K := ℚ) 3 (by norm_num) .a60 noStk true (fun i j => (10 * i + j : ℚ)) 2 2 5 7

/-- C25: refining (or keeping, for factors one) the mesh by integer factors keeps all original
points. -/
theorem C25_refine (procs : Nat) (hp : 0 < procs) (angle : Angle) (data : Int → Int → V)
    (N M f g : Nat) (hf : 0 < f) (hg : 0 < g) :
    ∃ new, resize2 (K := K) procs angle noStk true data N M (f * N) (g * M) = some new ∧
      new.length = (f * N) * (g * M) ∧
      ∀ i j : Nat, i < N → j < M → new[(f * i) * (g * M) + g * j]? = some (data i j) := by
  obtain ⟨new, h1, h2, h3⟩ :=
    C25_resize (K := K) procs hp angle noStk true data N M (f * N) (g * M)
  refine ⟨new, h1, h2, fun i j hi hj => ?_⟩
  rw [h3 (f * i) (g * j) (Nat.mul_lt_mul_of_pos_left hi hf) (Nat.mul_lt_mul_of_pos_left hj hg)]
  have e : ∀ (f N i : Nat), 0 < f → i < N →
      ((f * i : Nat) : K) * scale true N (f * N) = ((i : Int) : K) := by
    intro f N i hf hi
    have h1 : (f : K) ≠ 0 := Nat.cast_ne_zero.2 (by omega)
    have h2 : (N : K) ≠ 0 := Nat.cast_ne_zero.2 (by omega)
    simp only [scale, if_true]
    push_cast
    field_simp
  rw [e f N i hf hi, e g M j hg hj, C23_mesh_points]
  congr 2
  · exact Int.emod_eq_of_lt (by omega) (by omega)
  · exact Int.emod_eq_of_lt (by omega) (by omega)

example := C25_refine (K := ℚ) 3 (by norm_num) .a120 (fun i j => (10 * i + j : ℚ)) 2 3 4 5 (by norm_num) (by norm_num)

/-- `elphmod/bravais.py` 981-982 and 994: the result of the interpolation is stored in an array of
the data type of the input; for integer data this cuts off the fraction. -/
def storeInt (x : ℚ) : ℤ := if 0 ≤ x then ⌊x⌋ else ⌈x⌉

/-- C62: for arrays of integers, the values at new points are not the interpolated
values, although these are returned by `linear_interpolation` (here: `data = [0, 1]`, four
points). -/
theorem C62_integer_resize_violated :
    (resize1 (K := ℚ) 1 noStk true (fun i => (i : ℚ)) 2 4).map (List.map storeInt) =
      some [0, 0, 1, 0] ∧
    resize1 (K := ℚ) 1 noStk true (fun i => (i : ℚ)) 2 4 = some [0, 1/2, 1, 1/2] := by
  constructor <;> decide +kernel

/-- C25: resizing to the same shape changes nothing. -/
theorem C25_same_shape (procs : Nat) (hp : 0 < procs) (angle : Angle) (data : Int → Int → V)
    (N M : Nat) :
    ∃ new, resize2 (K := K) procs angle noStk true data N M N M = some new ∧
      new.length = N * M ∧ ∀ i j : Nat, i < N → j < M → new[i * M + j]? = some (data i j) := by
  have := C25_refine (K := K) procs hp angle data N M 1 1 one_pos one_pos
  simpa using this

/-- C25: without periodic boundary conditions, the corner points of the mesh are kept. -/
theorem C25_open (procs : Nat) (hp : 0 < procs) (angle : Angle) (data : Int → Int → V)
    (N M S0 S1 : Nat) (hN : 0 < N) (hM : 0 < M) (h0 : 1 < S0) (h1 : 1 < S1) :
    ∃ new, resize2 (K := K) procs angle noStk false data N M S0 S1 = some new ∧
      new.length = S0 * S1 ∧
      new[0]? = some (data 0 0) ∧ new[S1 - 1]? = some (data 0 (M - 1)) ∧
      new[(S0 - 1) * S1]? = some (data (N - 1) 0) ∧
      new[(S0 - 1) * S1 + (S1 - 1)]? = some (data (N - 1) (M - 1)) := by
  obtain ⟨new, g1, g2, g3⟩ :=
    C25_resize (K := K) procs hp angle noStk false data N M S0 S1
  have e : ∀ (N S : Nat), 1 < S →
      ((S - 1 : Nat) : K) * scale false N S = (((N : Int) - 1 : Int) : K) := by
    intro N S hS
    have hS' : (S : K) - 1 ≠ 0 := by
      have : (1 : K) < S := by exact_mod_cast hS
      linarith
    simp only [scale, Bool.false_eq_true, if_false]
    rw [Nat.cast_sub (by omega)]
    push_cast
    field_simp
  have z : ∀ (N S : Nat), ((0 : Nat) : K) * scale false N S = ((0 : Int) : K) := by
    intro N S; simp
  have m1 : ∀ N : Nat, 0 < N → ((N : Int) - 1) % N = (N : Int) - 1 := fun N h =>
    Int.emod_eq_of_lt (by omega) (by omega)
  refine ⟨new, g1, g2, ?_, ?_, ?_, ?_⟩
  · have := g3 0 0 (by omega) (by omega)
    rw [z, z, C23_mesh_points] at this
    simpa using this
  · have := g3 0 (S1 - 1) (by omega) (by omega)
    rw [z, e M S1 h1, C23_mesh_points, m1 M hM] at this
    simpa using this
  · have := g3 (S0 - 1) 0 (by omega) (by omega)
    rw [z, e N S0 h0, C23_mesh_points, m1 N hN] at this
    simpa using this
  · have := g3 (S0 - 1) (S1 - 1) (by omega) (by omega)
    rw [e N S0 h0, e M S1 h1, C23_mesh_points, m1 N hN, m1 M hM] at this
    exact this

/-- C25, one axis: the result on any number of processes, refinement and end points. -/
theorem C25_resize_1d (procs : Nat) (hp : 0 < procs) (stk : Stk V) (periodic : Bool)
    (data : Int → V) (N S : Nat) :
    resize1 (K := K) procs stk periodic data N S = some ((List.range S).map fun m : Nat =>
        interp1 stk data N ((m : K) * scale periodic N S)) := by
  obtain ⟨sizes, bounds, h1, h2, _⟩ := Verif.MPI.C02_bounds_ranges S procs hp
  unfold resize1
  rw [h1, Option.map_some]
  conv_rhs => rw [← h2]
  simp only [Verif.MPI.gatherv, List.flatMap_def, List.map_flatten, List.map_map]
  rfl

example : resize2 (K := ℚ) 3 .a60 noStk true (fun i j => (10 * i + j : ℚ)) 2 2 4 4 =
    some [0, 1/2, 1, 1/2, 5, 11/2, 6, 11/2, 10, 21/2, 11, 21/2, 5, 11/2, 6, 11/2] := by
  decide +kernel

end Verif.Interp
