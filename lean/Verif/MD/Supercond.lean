import Mathlib.Analysis.Convex.Jensen
import Mathlib.Analysis.Convex.SpecificFunctions.Basic
import Verif.MD.Density

/-!
# Effective coupling and phonon energies: `superconductivity` of `elphmod/md.py` 513-595
-/

namespace Verif.MD

open Verif.Diag Matrix

variable {n1 n2 n3 nb nat nq : Nat}

/-- `elphmod/md.py` 581-593: coupling strength, logarithmic and second-moment average phonon energy. `w2`: squared phonon
energies, `g2dd`: squared coupling averaged over the Fermi surface, `N0`: density of states. -/
noncomputable def averages {ι : Type} [Fintype ι] (eps N0 : ℝ) (g2dd w2 : ι → ℝ) : ℝ × ℝ × ℝ :=
  let w2' := fun i => if w2 i < eps then eps else w2 i
  let g2dd' := fun i => if w2 i < eps then 0 else g2dd i
  let V := fun i => g2dd' i / w2' i
  (N0 * ∑ i, V i, Real.exp ((∑ i, V i * Real.log (w2' i) / 2) / ∑ i, V i), √((∑ i, V i * w2' i) / ∑ i, V i))

/-- `elphmod/md.py` 562-576: square of the coupling to a phonon mode; `M`: atomic masses, `u`: polarization vectors. -/
noncomputable def modeCoupling (d : Cpl n1 n2 n3 nb (X nat)) (M : Fin nat → ℝ) (u : Matrix (X nat) (X nat) ℂ) (nu : X nat)
    (k : Mesh n1 n2 n3) (m n : Fin nb) : ℝ := ‖∑ x, d x k m n * ((1 / √(M x.1) : ℝ) : ℂ) * u x nu‖ ^ 2

/-- `elphmod/md.py` 549-554: dynamical matrix. -/
noncomputable def dynamical (D : X nat → X nat → ℂ) (M : Fin nat → ℝ) : Matrix (X nat) (X nat) ℂ :=
  fun x y => D x y * ((1 / √(M y.1) : ℝ) : ℂ) * ((1 / √(M x.1) : ℝ) : ℂ)

/-- `elphmod/md.py` 513-595 (`superconductivity`) for dense matrices: effective coupling strength, logarithmic and
second-moment average phonon energy; `w2` and `u` are the result of `np.linalg.eigh`. -/
noncomputable def Driver.superconductivity [NeZero n1] [NeZero n2] [NeZero n3] (eps kT : ℝ) (delta : ℝ → ℝ) (M : Fin nat → ℝ) (s : Driver n1 n2 n3 nb nat nq)
    (w2 : Fin (nq + 1) → X nat → ℝ) (u : Fin (nq + 1) → Matrix (X nat) (X nat) ℂ) : ℝ × ℝ × ℝ :=
  averages eps ((∑ k, ∑ n, delta (s.e k n / kT)) / kT / (n1 * n2 * n3 : Nat))
    (fun i : Fin (nq + 1) × X nat => fsEnum kT delta s.e (modeCoupling (s.d i.1) M (u i.1)) (s.q i.1) i.2 /
      ∑ iq, fsDeno kT delta s.e (s.q iq)) fun i => w2 i.1 i.2

/-! ### Averages -/

section averages
variable {ι : Type} [Fintype ι] {eps N0 : ℝ} {g2dd w2 : ι → ℝ}

/-- Weights of the average: coupling divided by squared energy, stable modes only. -/
noncomputable def modeWeight (eps : ℝ) (g2dd w2 : ι → ℝ) (i : ι) : ℝ := if w2 i < eps then 0 else g2dd i / w2 i

theorem averages_eq : averages eps N0 g2dd w2 = (N0 * ∑ i, modeWeight eps g2dd w2 i,
    Real.exp ((∑ i, modeWeight eps g2dd w2 i * Real.log (w2 i) / 2) / ∑ i, modeWeight eps g2dd w2 i),
    √((∑ i, modeWeight eps g2dd w2 i * w2 i) / ∑ i, modeWeight eps g2dd w2 i)) := by
  have h : ∀ i, (if w2 i < eps then 0 else g2dd i) / (if w2 i < eps then eps else w2 i) = modeWeight eps g2dd w2 i := by
    intro i
    unfold modeWeight
    split <;> simp
  have h1 : ∀ i (f : ℝ → ℝ), modeWeight eps g2dd w2 i * f (if w2 i < eps then eps else w2 i) = modeWeight eps g2dd w2 i * f (w2 i) := by
    intro i f
    unfold modeWeight
    split <;> simp
  unfold averages
  simp only [h, h1 _ Real.log]
  simp only [h1 _ fun x => x]

theorem modeWeight_nonneg (heps : 0 < eps) (hg : ∀ i, 0 ≤ g2dd i) (i : ι) : 0 ≤ modeWeight eps g2dd w2 i := by
  unfold modeWeight
  split
  · exact le_rfl
  · exact div_nonneg (hg i) (by linarith)

/-- C116: the coupling strength is not negative. -/
theorem C116_lambda (heps : 0 < eps) (hN : 0 ≤ N0) (hg : ∀ i, 0 ≤ g2dd i) : 0 ≤ (averages eps N0 g2dd w2).1 := by
  rw [averages_eq]
  exact mul_nonneg hN (Finset.sum_nonneg fun i _ => modeWeight_nonneg heps hg i)

/-- Means of functions of the energies. -/
theorem log_mean (heps : 0 < eps) (hg : ∀ i, 0 ≤ g2dd i) (hV : 0 < ∑ i, modeWeight eps g2dd w2 i) :
    (averages eps N0 g2dd w2).2.1 ^ 2 ≤ (∑ i, modeWeight eps g2dd w2 i * w2 i) / ∑ i, modeWeight eps g2dd w2 i := by
  rw [averages_eq, ← Real.exp_nat_mul]
  have e1 : ((2 : Nat) : ℝ) * ((∑ i, modeWeight eps g2dd w2 i * Real.log (w2 i) / 2) / ∑ i, modeWeight eps g2dd w2 i) =
      ∑ i, (modeWeight eps g2dd w2 i / ∑ i, modeWeight eps g2dd w2 i) • Real.log (w2 i) := by
    rw [mul_div_assoc', Finset.mul_sum, Finset.sum_div]
    refine Finset.sum_congr rfl fun i _ => ?_
    rw [smul_eq_mul]
    push_cast
    ring
  rw [e1]
  refine (convexOn_exp.map_sum_le (fun i _ => div_nonneg (modeWeight_nonneg heps hg i) hV.le) ?_ fun i _ => Set.mem_univ _).trans ?_
  · rw [← Finset.sum_div, div_self hV.ne']
  · rw [Finset.sum_div]
    refine Finset.sum_le_sum fun i _ => ?_
    rw [smul_eq_mul, div_mul_eq_mul_div]
    refine div_le_div_of_nonneg_right ?_ hV.le
    by_cases h : w2 i < eps
    · simp [modeWeight, h]
    · rw [Real.exp_log (by linarith)]

/-- C116: the logarithmic average is not larger than the second-moment average. -/
theorem C116_order (heps : 0 < eps) (hg : ∀ i, 0 ≤ g2dd i) (hV : 0 < ∑ i, modeWeight eps g2dd w2 i) :
    (averages eps N0 g2dd w2).2.1 ≤ (averages eps N0 g2dd w2).2.2 := by
  have h := log_mean (N0 := N0) heps hg hV
  have h2 : (averages eps N0 g2dd w2).2.2 = √((∑ i, modeWeight eps g2dd w2 i * w2 i) / ∑ i, modeWeight eps g2dd w2 i) := by
    rw [averages_eq]
  rw [h2]
  exact Real.le_sqrt_of_sq_le h

/-- C116: both averages lie between the smallest and the largest energy of the stable modes that couple. -/
theorem C116_range (heps : 0 < eps) (hg : ∀ i, 0 ≤ g2dd i) (hV : 0 < ∑ i, modeWeight eps g2dd w2 i) (lo hi : ℝ) (hlo : 0 < lo)
    (hhi : 0 < hi) (h : ∀ i, eps ≤ w2 i → g2dd i ≠ 0 → lo ^ 2 ≤ w2 i ∧ w2 i ≤ hi ^ 2) :
    lo ≤ (averages eps N0 g2dd w2).2.1 ∧ (averages eps N0 g2dd w2).2.2 ≤ hi := by
  have key : ∀ (i : ι), modeWeight eps g2dd w2 i = 0 ∨ (eps ≤ w2 i ∧ lo ^ 2 ≤ w2 i ∧ w2 i ≤ hi ^ 2) := by
    intro i
    by_cases h1 : w2 i < eps
    · exact Or.inl (by simp [modeWeight, h1])
    · by_cases h2 : g2dd i = 0
      · exact Or.inl (by simp [modeWeight, h2])
      · exact Or.inr ⟨not_lt.1 h1, h i (not_lt.1 h1) h2⟩
  rw [averages_eq]
  constructor
  · rw [← Real.log_le_iff_le_exp hlo, le_div_iff₀ hV, Finset.mul_sum]
    refine Finset.sum_le_sum fun i _ => ?_
    rcases key i with h1 | ⟨h1, h2, -⟩
    · simp [h1]
    · have h3 : 2 * Real.log lo ≤ Real.log (w2 i) := by
        rw [show 2 * Real.log lo = Real.log (lo ^ 2) by rw [Real.log_pow]; norm_num]
        exact Real.log_le_log (by positivity) h2
      have h4 := modeWeight_nonneg (w2 := w2) heps hg i
      nlinarith
  · rw [Real.sqrt_le_left hhi.le, div_le_iff₀ hV, Finset.mul_sum]
    refine Finset.sum_le_sum fun i _ => ?_
    rcases key i with h1 | ⟨-, -, h2⟩
    · simp [h1]
    · have h4 := modeWeight_nonneg (w2 := w2) heps hg i
      nlinarith

/-- C116: unstable modes do not contribute: neither their coupling nor their energy matters. -/
theorem C116_unstable (g2dd' w2' : ι → ℝ) (h : ∀ i, (w2 i < eps ∧ w2' i < eps) ∨ (w2' i = w2 i ∧ g2dd' i = g2dd i)) :
    averages eps N0 g2dd' w2' = averages eps N0 g2dd w2 := by
  have h1 : ∀ i (f : ℝ → ℝ), modeWeight eps g2dd' w2' i * f (w2' i) = modeWeight eps g2dd w2 i * f (w2 i) := by
    intro i f
    rcases h i with ⟨a, b⟩ | ⟨a, b⟩
    · simp [modeWeight, a, b]
    · simp [modeWeight, a, b]
  have h0 : ∀ i, modeWeight eps g2dd' w2' i = modeWeight eps g2dd w2 i := by
    intro i
    simpa using h1 i fun _ => 1
  rw [averages_eq, averages_eq]
  have h2 := fun i => h1 i Real.log
  have h3 := fun i => h1 i fun x => x
  simp only [h2, h3]
  simp only [h0]

end averages

/-! ### Choice of polarization vectors -/

/-- Sum of the squared couplings to all modes, weighted by a function of their energies. -/
theorem mode_choice {ι : Type} [Fintype ι] [DecidableEq ι] (D u v : Matrix ι ι ℂ) (w2 : ι → ℝ) (hu : uᴴ * u = 1) (hv : vᴴ * v = 1)
    (h1 : D * u = u * diagonal fun n => (w2 n : ℂ)) (h2 : D * v = v * diagonal fun n => (w2 n : ℂ)) (f : ℝ → ℝ) (c : ι → ℂ) :
    ∑ nu, ‖∑ x, c x * u x nu‖ ^ 2 * f (w2 nu) = ∑ nu, ‖∑ x, c x * v x nu‖ ^ 2 * f (w2 nu) := by
  have hd : ∀ W : Matrix ι ι ℂ, ∑ x, ∑ y, c x * (W * diagonal (fun n => (f (w2 n) : ℂ)) * Wᴴ) x y * star (c y) =
      ((∑ nu, ‖∑ x, c x * W x nu‖ ^ 2 * f (w2 nu) : ℝ) : ℂ) := by
    intro W
    rw [Complex.ofReal_sum]
    calc _ = ∑ x, ∑ y, ∑ n, c x * (W x n * (f (w2 n) : ℂ) * star (W y n)) * star (c y) := by
          refine Finset.sum_congr rfl fun x _ => Finset.sum_congr rfl fun y _ => ?_
          rw [mul_apply, Finset.mul_sum, Finset.sum_mul]
          refine Finset.sum_congr rfl fun n _ => ?_
          rw [mul_diagonal, conjTranspose_apply]
      _ = ∑ n, ∑ x, ∑ y, c x * (W x n * (f (w2 n) : ℂ) * star (W y n)) * star (c y) := by
          rw [Finset.sum_congr rfl fun x _ => Finset.sum_comm, Finset.sum_comm]
      _ = _ := by
          refine Finset.sum_congr rfl fun n _ => ?_
          rw [Complex.ofReal_mul, Complex.ofReal_pow, ← Complex.mul_conj', map_sum, Finset.sum_mul_sum, Finset.sum_mul]
          refine Finset.sum_congr rfl fun x _ => ?_
          rw [Finset.sum_mul]
          refine Finset.sum_congr rfl fun y _ => ?_
          simp only [map_mul, Complex.star_def]
          ring
  have := hd u
  rw [spectral_choice D u v w2 hu hv h1 h2 f, hd v] at this
  exact_mod_cast this.symm

/-- C116: the results do not depend on the choice of the polarization vectors (phases and bases of degenerate subspaces). -/
theorem C116_gauge [NeZero n1] [NeZero n2] [NeZero n3] (eps kT : ℝ) (delta : ℝ → ℝ) (M : Fin nat → ℝ) (s : Driver n1 n2 n3 nb nat nq)
    (D : Fin (nq + 1) → X nat → X nat → ℂ) (w2 : Fin (nq + 1) → X nat → ℝ) (u v : Fin (nq + 1) → Matrix (X nat) (X nat) ℂ)
    (hu : ∀ iq, (u iq)ᴴ * u iq = 1) (hv : ∀ iq, (v iq)ᴴ * v iq = 1)
    (h1 : ∀ iq, dynamical (D iq) M * u iq = u iq * diagonal fun nu => (w2 iq nu : ℂ))
    (h2 : ∀ iq, dynamical (D iq) M * v iq = v iq * diagonal fun nu => (w2 iq nu : ℂ)) :
    s.superconductivity eps kT delta M w2 u = s.superconductivity eps kT delta M w2 v := by
  have key : ∀ (F : ℝ → ℝ) (iq : Fin (nq + 1)), ∑ nu, fsEnum kT delta s.e (modeCoupling (s.d iq) M (u iq)) (s.q iq) nu * F (w2 iq nu) =
      ∑ nu, fsEnum kT delta s.e (modeCoupling (s.d iq) M (v iq)) (s.q iq) nu * F (w2 iq nu) := by
    intro F iq
    have e : ∀ W : Matrix (X nat) (X nat) ℂ, ∑ nu, fsEnum kT delta s.e (modeCoupling (s.d iq) M W) (s.q iq) nu * F (w2 iq nu) =
        ∑ k, ∑ m, ∑ n, (∑ nu, ‖∑ x, (s.d iq x k m n * ((1 / √(M x.1) : ℝ) : ℂ)) * W x nu‖ ^ 2 * F (w2 iq nu)) *
          (slice (fun k n => delta (s.e k n / kT) / kT) (qIndices n1 n2 n3 (s.q iq)) k m * (delta (s.e k n / kT) / kT)) := by
      intro W
      unfold fsEnum modeCoupling
      simp only [Finset.sum_mul]
      rw [Finset.sum_comm]
      refine Finset.sum_congr rfl fun k _ => ?_
      rw [Finset.sum_comm]
      refine Finset.sum_congr rfl fun m _ => ?_
      rw [Finset.sum_comm]
      refine Finset.sum_congr rfl fun n _ => Finset.sum_congr rfl fun nu _ => ?_
      ring
    rw [e, e]
    refine Finset.sum_congr rfl fun k _ => Finset.sum_congr rfl fun m _ => Finset.sum_congr rfl fun n _ => ?_
    rw [mode_choice (dynamical (D iq) M) (u iq) (v iq) (w2 iq) (hu iq) (hv iq) (h1 iq) (h2 iq) F]
  have sums : ∀ (F : ℝ → ℝ), ∑ i : Fin (nq + 1) × X nat, modeWeight eps (fun i : Fin (nq + 1) × X nat =>
        fsEnum kT delta s.e (modeCoupling (s.d i.1) M (u i.1)) (s.q i.1) i.2 / ∑ iq, fsDeno kT delta s.e (s.q iq))
        (fun i => w2 i.1 i.2) i * F (w2 i.1 i.2) =
      ∑ i : Fin (nq + 1) × X nat, modeWeight eps (fun i : Fin (nq + 1) × X nat =>
        fsEnum kT delta s.e (modeCoupling (s.d i.1) M (v i.1)) (s.q i.1) i.2 / ∑ iq, fsDeno kT delta s.e (s.q iq))
        (fun i => w2 i.1 i.2) i * F (w2 i.1 i.2) := by
    intro F
    rw [Fintype.sum_prod_type, Fintype.sum_prod_type]
    refine Finset.sum_congr rfl fun iq _ => ?_
    have e : ∀ W : Fin (nq + 1) → Matrix (X nat) (X nat) ℂ, ∑ nu, modeWeight eps (fun i : Fin (nq + 1) × X nat =>
        fsEnum kT delta s.e (modeCoupling (s.d i.1) M (W i.1)) (s.q i.1) i.2 / ∑ iq, fsDeno kT delta s.e (s.q iq))
        (fun i => w2 i.1 i.2) (iq, nu) * F (w2 iq nu) =
        ∑ nu, fsEnum kT delta s.e (modeCoupling (s.d iq) M (W iq)) (s.q iq) nu *
          (fun x => if x < eps then 0 else F x / x / ∑ iq, fsDeno kT delta s.e (s.q iq)) (w2 iq nu) := by
      intro W
      refine Finset.sum_congr rfl fun nu _ => ?_
      unfold modeWeight
      simp only
      split
      · simp
      · ring
    rw [e, e]
    exact key (fun x => if x < eps then 0 else F x / x / ∑ iq, fsDeno kT delta s.e (s.q iq)) iq
  unfold Driver.superconductivity
  rw [averages_eq, averages_eq]
  have s1 := sums fun _ => 1
  have s2 := sums fun x => Real.log x / 2
  have s3 := sums fun x => x
  simp only [mul_one, mul_div_assoc'] at s1 s2 s3
  simp only [s1, s2, s3]

/-- C116: coupling strength and averages of the driver for any nonnegative broadening function. -/
theorem C116_driver [NeZero n1] [NeZero n2] [NeZero n3] (eps kT : ℝ) (heps : 0 < eps) (hkT : 0 < kT) (delta : ℝ → ℝ)
    (hdelta : ∀ x, 0 ≤ delta x) (M : Fin nat → ℝ) (s : Driver n1 n2 n3 nb nat nq) (w2 : Fin (nq + 1) → X nat → ℝ)
    (u : Fin (nq + 1) → Matrix (X nat) (X nat) ℂ) :
    0 ≤ (s.superconductivity eps kT delta M w2 u).1 ∧ (0 < (s.superconductivity eps kT delta M w2 u).1 →
      (s.superconductivity eps kT delta M w2 u).2.1 ≤ (s.superconductivity eps kT delta M w2 u).2.2) := by
  have hd : ∀ k n, 0 ≤ delta (s.e k n / kT) / kT := fun k n => div_nonneg (hdelta _) hkT.le
  have hs : ∀ q k m, 0 ≤ slice (fun k n => delta (s.e k n / kT) / kT) (qIndices n1 n2 n3 q) k m := by
    intro q k m
    unfold slice
    exact hd _ _
  have hg : ∀ i : Fin (nq + 1) × X nat, 0 ≤ fsEnum kT delta s.e (modeCoupling (s.d i.1) M (u i.1)) (s.q i.1) i.2 /
      ∑ iq, fsDeno kT delta s.e (s.q iq) := by
    intro i
    refine div_nonneg ?_ (Finset.sum_nonneg fun iq _ => ?_)
    · unfold fsEnum modeCoupling
      exact Finset.sum_nonneg fun k _ => Finset.sum_nonneg fun m _ => Finset.sum_nonneg fun n _ =>
        mul_nonneg (sq_nonneg _) (mul_nonneg (hs _ _ _) (hd _ _))
    · unfold fsDeno
      exact Finset.sum_nonneg fun k _ => Finset.sum_nonneg fun m _ => Finset.sum_nonneg fun n _ => mul_nonneg (hs _ _ _) (hd _ _)
  have hN : 0 ≤ (∑ k, ∑ n, delta (s.e k n / kT)) / kT / (n1 * n2 * n3 : Nat) := by
    refine div_nonneg (div_nonneg ?_ hkT.le) (by positivity)
    exact Finset.sum_nonneg fun k _ => Finset.sum_nonneg fun n _ => hdelta _
  unfold Driver.superconductivity
  refine ⟨C116_lambda heps hN hg, fun h => C116_order heps hg ?_⟩
  rw [averages_eq] at h
  exact (pos_iff_pos_of_mul_pos h).1 (by
    rcases hN.lt_or_eq with h1 | h1
    · exact h1
    · simp only [← h1, zero_mul, lt_self_iff_false] at h)

/-- Example: one stable mode and one unstable mode. -/
example : averages 1 3 (![8, 100] : Fin 2 → ℝ) ![4, -7] = (6, 2, 2) := by
  rw [averages_eq]
  have h1 : Real.log 4 = 2 * Real.log 2 := by
    rw [show (4 : ℝ) = 2 ^ 2 by norm_num, Real.log_pow]
    norm_num
  have h2 : ∑ i, modeWeight 1 (![8, 100] : Fin 2 → ℝ) ![4, -7] i = 2 := by
    simp [modeWeight, Fin.sum_univ_two]
    norm_num
  have h3 : ∑ i, modeWeight 1 (![8, 100] : Fin 2 → ℝ) ![4, -7] i * Real.log ((![4, -7] : Fin 2 → ℝ) i) / 2 = 2 * Real.log 2 := by
    simp [modeWeight, Fin.sum_univ_two, h1, show (-7 : ℝ) < 1 by norm_num]
    ring
  have h4 : ∑ i, modeWeight 1 (![8, 100] : Fin 2 → ℝ) ![4, -7] i * (![4, -7] : Fin 2 → ℝ) i = 8 := by
    simp [modeWeight, Fin.sum_univ_two, show (-7 : ℝ) < 1 by norm_num]
  rw [h2, h3, h4, mul_div_cancel_left₀ _ two_ne_zero, Real.exp_log two_pos, show (8 / 2 : ℝ) = 2 ^ 2 by norm_num,
    Real.sqrt_sq two_pos.le]
  norm_num

/-- Example: polarization vectors of three degenerate modes with other phases give the same result. -/
example (s : Driver 2 2 1 1 1 0) (kT : ℝ) (delta : ℝ → ℝ) :
    s.superconductivity 1 kT delta (fun _ => 1) (fun _ _ => 4) (fun _ => 1) =
    s.superconductivity 1 kT delta (fun _ => 1) (fun _ _ => 4) (fun _ => diagonal fun _ => Complex.I) := by
  have h : dynamical (fun x y => if x = y then 4 else 0) (fun _ => 1) = (diagonal fun _ => 4 : Matrix (X 1) (X 1) ℂ) := by
    ext x y
    simp [dynamical, diagonal_apply]
  refine C116_gauge 1 kT delta _ s (fun _ x y => if x = y then 4 else 0) _ _ _ (fun _ => by simp) (fun _ => ?_) (fun _ => ?_) (fun _ => ?_)
  · rw [diagonal_conjTranspose, diagonal_mul_diagonal]
    simp
  · rw [h]
    simp
  · rw [h]
    simp [diagonal_mul_diagonal, mul_comm]

end Verif.MD
