import Mathlib.Analysis.Complex.Order
import Mathlib.LinearAlgebra.Matrix.PosDef
import Verif.MD.Density
import Verif.MD.Thermo

/-!
# Free energy and ground state (C188)

The free energy of `elphmod.md.Driver` as compared to the energy of arbitrary states of the electrons in the same crystal structure. The model is that of
`MD/Model.lean` and `MD/Optimize.lean`.
-/

namespace Verif.MD.Ground

open Verif.Diag
open Verif.MD.Optimize
open Verif.MD.Bounds
open Verif.MD.Thermo
open Matrix Filter Topology
open scoped ComplexOrder

/-- Functions that increase up to zero and then decrease. -/
theorem max_at_zero {f delta : ℝ → ℝ} (hf : ∀ x, HasDerivAt f (-x * delta x) x) (hd : ∀ x, 0 ≤ delta x) (x : ℝ) : f x ≤ f 0 := by
  have hc : Continuous f := continuous_iff_continuousAt.2 fun x => (hf x).continuousAt
  rcases le_total 0 x with h | h
  · have : AntitoneOn f (Set.Ici 0) := by
      refine antitoneOn_of_deriv_nonpos (convex_Ici 0) hc.continuousOn (fun y _ => (hf y).differentiableAt.differentiableWithinAt) fun y hy => ?_
      rw [interior_Ici] at hy
      rw [(hf y).deriv]
      have := mul_nonneg (Set.mem_Ioi.1 hy).le (hd y)
      linarith
    exact this (Set.mem_Ici.2 le_rfl) (Set.mem_Ici.2 h) h
  · have : MonotoneOn f (Set.Iic 0) := by
      refine monotoneOn_of_deriv_nonneg (convex_Iic 0) hc.continuousOn (fun y _ => (hf y).differentiableAt.differentiableWithinAt) fun y hy => ?_
      rw [interior_Iic] at hy
      rw [(hf y).deriv]
      exact mul_nonneg (neg_nonneg.2 (Set.mem_Iio.1 hy).le) (hd y)
    exact this (Set.mem_Iic.2 h) (Set.mem_Iic.2 le_rfl) h

variable {n1 n2 n3 nb nat nq : Nat}

/-- Specification: density matrices of electrons with `N` electrons per unit cell, including spin. -/
structure Density (N : ℝ) (ρ : Mesh n1 n2 n3 → Matrix (Fin nb) (Fin nb) ℂ) : Prop where
  empty : ∀ k, (ρ k).PosSemidef
  full : ∀ k, (1 - ρ k).PosSemidef
  number : 2 / (n1 * n2 * n3 : Nat) * (∑ k, (ρ k).trace.re) = N

/-- Specification: energy of electrons with the given density matrix and of the lattice. -/
noncomputable def energy (s : Driver n1 n2 n3 nb nat nq) (u : X nat → ℝ) (ρ : Mesh n1 n2 n3 → Matrix (Fin nb) (Fin nb) ℂ) : ℝ :=
  2 / (n1 * n2 * n3 : Nat) * (∑ k, (ρ k * (s.H0 k + ∑ x, (center u x : ℂ) • s.d0 0 x k)).trace.re) +
    1 / 2 * (∑ x, ∑ y, center u x * (s.C0 0 x y).re * center u y) + ∑ x, s.F0 x * center u x

variable {eigh : Matrix (Fin nb) (Fin nb) ℂ → (Fin nb → ℝ) × Matrix (Fin nb) (Fin nb) ℂ} {level : ℝ → ℝ → (Mesh n1 n2 n3 → Fin nb → ℝ) → ℝ}
  {occ entropy : ℝ → ℝ} {s : Driver n1 n2 n3 nb nat nq}

/-- Specification: the driver and the external diagonalization. -/
structure Solver (eigh : Matrix (Fin nb) (Fin nb) ℂ → (Fin nb → ℝ) × Matrix (Fin nb) (Fin nb) ℂ) (s : Driver n1 n2 n3 nb nat nq) : Prop where
  eig : ∀ A : Matrix (Fin nb) (Fin nb) ℂ, Aᴴ = A → A * (eigh A).2 = (eigh A).2 * diagonal fun n => (((eigh A).1 n : ℝ) : ℂ)
  unitary : ∀ A : Matrix (Fin nb) (Fin nb) ℂ, Aᴴ = A → (eigh A).2ᴴ * (eigh A).2 = 1
  hamiltonian : ∀ k, (s.H0 k)ᴴ = s.H0 k
  coupling : ∀ x k, (s.d0 0 x k)ᴴ = s.d0 0 x k

/-- Eigenvectors. -/
noncomputable def vectors (eigh : Matrix (Fin nb) (Fin nb) ℂ → (Fin nb → ℝ) × Matrix (Fin nb) (Fin nb) ℂ) (s : Driver n1 n2 n3 nb nat nq)
    (u : X nat → ℝ) (k : Mesh n1 n2 n3) : Matrix (Fin nb) (Fin nb) ℂ := (eigh (({ s with u := center u } : Driver n1 n2 n3 nb nat nq).H k)).2

theorem hermitian (h : Solver eigh s) (u : X nat → ℝ) (k : Mesh n1 n2 n3) :
    (({ s with u := center u } : Driver n1 n2 n3 nb nat nq).H k)ᴴ = ({ s with u := center u } : Driver n1 n2 n3 nb nat nq).H k := by
  simp only [Driver.H, Matrix.conjTranspose_add, Matrix.conjTranspose_sum, Matrix.conjTranspose_smul, h.hamiltonian, h.coupling, Complex.star_def,
    Complex.conj_ofReal]

theorem spectral (h : Solver eigh s) (u : X nat → ℝ) (k : Mesh n1 n2 n3) : s.H0 k + ∑ x, (center u x : ℂ) • s.d0 0 x k =
    vectors eigh s u k * (diagonal fun n => ((bands eigh s u k n : ℝ) : ℂ)) * (vectors eigh s u k)ᴴ := by
  have hH := hermitian h u k
  have h1 := h.eig _ hH
  have h2 := mul_eq_one_comm.1 (h.unitary _ hH)
  have : ({ s with u := center u } : Driver n1 n2 n3 nb nat nq).H k =
      ({ s with u := center u } : Driver n1 n2 n3 nb nat nq).H k * (vectors eigh s u k * (vectors eigh s u k)ᴴ) := by
    rw [show vectors eigh s u k * (vectors eigh s u k)ᴴ = 1 from h2, Matrix.mul_one]
  refine Eq.trans this ?_
  rw [← Matrix.mul_assoc]
  exact congrArg (· * (vectors eigh s u k)ᴴ) h1

/-- Occupation of the eigenstates. -/
noncomputable def diag (U ρ : Matrix (Fin nb) (Fin nb) ℂ) (n : Fin nb) : ℝ := ((Uᴴ * ρ * U) n n).re

theorem diag_nonneg {ρ : Matrix (Fin nb) (Fin nb) ℂ} (h : ρ.PosSemidef) (U : Matrix (Fin nb) (Fin nb) ℂ) (n : Fin nb) : 0 ≤ diag U ρ n :=
  (Complex.le_def.1 (h.conjTranspose_mul_mul_same U).diag_nonneg).1

theorem diag_le {ρ U : Matrix (Fin nb) (Fin nb) ℂ} (h : (1 - ρ).PosSemidef) (hU : Uᴴ * U = 1) (n : Fin nb) : diag U ρ n ≤ 1 := by
  have := diag_nonneg h U n
  unfold diag at this ⊢
  rw [Matrix.mul_sub, Matrix.sub_mul, Matrix.mul_one, hU, Matrix.sub_apply, Matrix.one_apply_eq, Complex.sub_re, Complex.one_re] at this
  linarith

theorem trace_diag {U : Matrix (Fin nb) (Fin nb) ℂ} (ρ : Matrix (Fin nb) (Fin nb) ℂ) (hU : U * Uᴴ = 1) : ρ.trace.re = ∑ n, diag U ρ n := by
  have : ρ.trace = (Uᴴ * ρ * U).trace := by rw [Matrix.trace_mul_comm, ← Matrix.mul_assoc, hU, Matrix.one_mul]
  rw [this]
  unfold Matrix.trace diag
  rw [Complex.re_sum]
  rfl

theorem trace_energy (U ρ : Matrix (Fin nb) (Fin nb) ℂ) (e : Fin nb → ℝ) :
    (ρ * (U * (diagonal fun n => ((e n : ℝ) : ℂ)) * Uᴴ)).trace.re = ∑ n, diag U ρ n * e n := by
  have : (ρ * (U * (diagonal fun n => ((e n : ℝ) : ℂ)) * Uᴴ)).trace = (Uᴴ * ρ * U * diagonal fun n => ((e n : ℝ) : ℂ)).trace := by
    rw [← Matrix.mul_assoc, Matrix.trace_mul_comm]
    simp only [Matrix.mul_assoc]
  rw [this]
  unfold Matrix.trace diag
  rw [Complex.re_sum]
  refine Finset.sum_congr rfl fun n _ => ?_
  rw [Matrix.diag_apply, Matrix.mul_diagonal, Complex.re_mul_ofReal]

variable [NeZero n1] [NeZero n2] [NeZero n3]

/-- **C188**: the free energy is a lower bound for the energy of any state of the electrons for the given structure, in particular, the ground state. -/
theorem C188_upper {T N : ℝ} (hT : 0 < T) (hw : ∀ y, occ y * y - entropy y ≤ 0 ∧ occ y * y - entropy y ≤ y) (h : Solver eigh s)
    (u : X nat → ℝ) {ρ : Mesh n1 n2 n3 → Matrix (Fin nb) (Fin nb) ℂ} (hρ : Density N ρ) :
    F eigh level occ entropy s T N u ≤ energy s u ρ := by
  have uA : ∀ k, (vectors eigh s u k)ᴴ * vectors eigh s u k = 1 := fun k => h.unitary _ (hermitian h u k)
  have uB : ∀ k, vectors eigh s u k * (vectors eigh s u k)ᴴ = 1 := fun k => mul_eq_one_comm.1 (uA k)
  rw [F_eq hT.ne']
  unfold energy
  simp only [spectral h u, trace_energy]
  have hn := hρ.number
  simp only [fun k => trace_diag (ρ k) (uB k)] at hn
  set m := M eigh level s T N u
  have key : ∑ k, ∑ n, omega1 T occ entropy (bands eigh s u k n - m) ≤
      ∑ k, ∑ n, diag (vectors eigh s u k) (ρ k) n * bands eigh s u k n - (∑ k, ∑ n, diag (vectors eigh s u k) (ρ k) n) * m := by
    simp only [Finset.sum_mul, ← Finset.sum_sub_distrib]
    refine Finset.sum_le_sum fun k _ => Finset.sum_le_sum fun n _ => ?_
    have a := diag_nonneg (hρ.empty k) (vectors eigh s u k) n
    have b := diag_le (hρ.full k) (uA k) n
    set f := diag (vectors eigh s u k) (ρ k) n
    set x := bands eigh s u k n - m with hx
    have c := hw (x / T)
    have c1 : omega1 T occ entropy x ≤ 0 := mul_nonpos_of_nonneg_of_nonpos hT.le c.1
    have c2 : omega1 T occ entropy x ≤ x := by
      have := mul_le_mul_of_nonneg_left c.2 hT.le
      rw [mul_div_cancel₀ _ hT.ne'] at this
      exact this
    have : omega1 T occ entropy x ≤ f * x := by nlinarith
    refine this.trans (le_of_eq ?_)
    rw [hx]
    ring
  have hle := mul_le_mul_of_nonneg_left key (show (0 : ℝ) ≤ 2 / (n1 * n2 * n3 : Nat) by positivity)
  rw [mul_sub, ← mul_assoc, hn] at hle
  unfold form
  norm_num at hle ⊢
  linarith

/-- Density matrix of the driver, cf. `elphmod/md.py` 297 and 600-610 (`density`). -/
noncomputable def thermal (eigh : Matrix (Fin nb) (Fin nb) ℂ → (Fin nb → ℝ) × Matrix (Fin nb) (Fin nb) ℂ)
    (level : ℝ → ℝ → (Mesh n1 n2 n3 → Fin nb → ℝ) → ℝ) (occ : ℝ → ℝ) (s : Driver n1 n2 n3 nb nat nq) (T N : ℝ) (u : X nat → ℝ)
    (k : Mesh n1 n2 n3) : Matrix (Fin nb) (Fin nb) ℂ :=
  vectors eigh s u k * (diagonal fun n => ((occ ((solved eigh (level T N) (env s T N) u).e k n / T) : ℝ) : ℂ)) * (vectors eigh s u k)ᴴ

theorem diag_thermal (T N : ℝ) (u : X nat → ℝ) (k : Mesh n1 n2 n3) (hU : (vectors eigh s u k)ᴴ * vectors eigh s u k = 1) (n : Fin nb) :
    diag (vectors eigh s u k) (thermal eigh level occ s T N u k) n = occ ((bands eigh s u k n - M eigh level s T N u) / T) := by
  unfold diag thermal
  have : (vectors eigh s u k)ᴴ * (vectors eigh s u k *
      (diagonal fun n => ((occ ((solved eigh (level T N) (env s T N) u).e k n / T) : ℝ) : ℂ)) * (vectors eigh s u k)ᴴ) * vectors eigh s u k =
      diagonal fun n => ((occ ((solved eigh (level T N) (env s T N) u).e k n / T) : ℝ) : ℂ) := by
    rw [← Matrix.mul_assoc, ← Matrix.mul_assoc, hU, Matrix.one_mul, Matrix.mul_assoc, hU, Matrix.mul_one]
  rw [this, diagonal_apply_eq, Complex.ofReal_re]
  rfl

theorem psd_spectral (U : Matrix (Fin nb) (Fin nb) ℂ) {f : Fin nb → ℝ} (hf : ∀ n, 0 ≤ f n) :
    (U * (diagonal fun n => ((f n : ℝ) : ℂ)) * Uᴴ).PosSemidef := by
  have : (diagonal fun n => ((f n : ℝ) : ℂ)).PosSemidef := PosSemidef.diagonal fun n => by
    rw [Pi.zero_apply]
    exact Complex.zero_le_real.2 (hf n)
  exact this.mul_mul_conjTranspose_same U

theorem thermal_density {T N : ℝ} (h01 : ∀ x, 0 ≤ occ x ∧ occ x ≤ 1) (hl : Level level occ T N) (h : Solver eigh s) (u : X nat → ℝ) :
    Density N (thermal eigh level occ s T N u) := by
  have uA : ∀ k, (vectors eigh s u k)ᴴ * vectors eigh s u k = 1 := fun k => h.unitary _ (hermitian h u k)
  have uB : ∀ k, vectors eigh s u k * (vectors eigh s u k)ᴴ = 1 := fun k => mul_eq_one_comm.1 (uA k)
  refine ⟨fun k => psd_spectral _ fun n => (h01 _).1, fun k => ?_, ?_⟩
  · have : 1 - thermal eigh level occ s T N u k = vectors eigh s u k *
        (diagonal fun n => ((1 - occ ((solved eigh (level T N) (env s T N) u).e k n / T) : ℝ) : ℂ)) * (vectors eigh s u k)ᴴ := by
      have hd : (diagonal fun n => ((1 - occ ((solved eigh (level T N) (env s T N) u).e k n / T) : ℝ) : ℂ)) =
          1 - diagonal fun n => ((occ ((solved eigh (level T N) (env s T N) u).e k n / T) : ℝ) : ℂ) := by
        rw [← diagonal_one, diagonal_sub]
        refine congrArg diagonal (funext fun n => ?_)
        push_cast
        rfl
      rw [hd, Matrix.mul_sub, Matrix.sub_mul, Matrix.mul_one, uB]
      rfl
    rw [this]
    exact psd_spectral _ fun n => sub_nonneg.2 (h01 _).2
  · simp only [fun k => trace_diag (thermal eigh level occ s T N u k) (uB k), fun k => diag_thermal (level := level) (occ := occ) T N u k (uA k)]
    exact hl (bands eigh s u)

/-- **C188**: the state of the driver is such a state, and its energy is the free energy plus temperature times entropy. -/
theorem C188_thermal {T N : ℝ} (hT : 0 < T) (h01 : ∀ x, 0 ≤ occ x ∧ occ x ≤ 1) (hl : Level level occ T N) (h : Solver eigh s) (u : X nat → ℝ) :
    Density N (thermal eigh level occ s T N u) ∧
      energy s u (thermal eigh level occ s T N u) = F eigh level occ entropy s T N u + T * S eigh level entropy s T N u := by
  refine ⟨thermal_density h01 hl h u, ?_⟩
  have uA : ∀ k, (vectors eigh s u k)ᴴ * vectors eigh s u k = 1 := fun k => h.unitary _ (hermitian h u k)
  have hn := hl (bands eigh s u)
  rw [← M_eq (eigh := eigh) (level := level) (s := s)] at hn
  rw [F_eq hT.ne', S_eq]
  unfold energy
  simp only [spectral h u, trace_energy, fun k => diag_thermal (level := level) (occ := occ) T N u k (uA k)]
  set m := M eigh level s T N u
  have key : ∑ k, ∑ n, omega1 T occ entropy (bands eigh s u k n - m) = ∑ k, ∑ n, occ ((bands eigh s u k n - m) / T) * bands eigh s u k n -
      (∑ k, ∑ n, occ ((bands eigh s u k n - m) / T)) * m - T * ∑ k, ∑ n, entropy ((bands eigh s u k n - m) / T) := by
    simp only [Finset.sum_mul, Finset.mul_sum, ← Finset.sum_sub_distrib]
    refine Finset.sum_congr rfl fun k _ => Finset.sum_congr rfl fun n _ => ?_
    unfold omega1
    field_simp
  rw [key, mul_sub, mul_sub, ← mul_assoc _ _ m, hn]
  unfold form
  norm_num
  ring

/-- **C188**: its diagonal is what `density` returns. -/
theorem C188_density (T N : ℝ) (u : X nat → ℝ) (a : Fin nb) : (solved eigh (level T N) (env s T N) u).density occ a =
    2 / (n1 * n2 * n3 : Nat) * ∑ k, (thermal eigh level occ s T N u k a a).re := by
  have h : ∀ k, (thermal eigh level occ s T N u k a a).re =
      ∑ n, ‖vectors eigh s u k a n‖ ^ 2 * occ ((solved eigh (level T N) (env s T N) u).e k n / T) := by
    intro k
    unfold thermal
    rw [Matrix.mul_apply, Complex.re_sum]
    refine Finset.sum_congr rfl fun n _ => ?_
    rw [Matrix.mul_diagonal, Matrix.conjTranspose_apply, mul_right_comm, Complex.star_def, Complex.mul_conj', Complex.re_mul_ofReal]
    norm_cast
  simp only [h]
  unfold Driver.density
  rw [Finset.sum_comm, ← Finset.sum_div, ← mul_div_assoc, div_mul_eq_mul_div]
  rfl

/-- **C188**: the free energy is below the energy of the ground state by at most temperature times the largest entropy. -/
theorem C188_bracket {T N B : ℝ} (hT : 0 < T) (h01 : ∀ x, 0 ≤ occ x ∧ occ x ≤ 1) (hw : ∀ y, occ y * y - entropy y ≤ 0 ∧ occ y * y - entropy y ≤ y)
    (hB : ∀ x, entropy x ≤ B) (hl : Level level occ T N) (h : Solver eigh s) (u : X nat → ℝ) {E0 : ℝ}
    (h0 : IsGLB {x | ∃ ρ : Mesh n1 n2 n3 → Matrix (Fin nb) (Fin nb) ℂ, Density N ρ ∧ energy s u ρ = x} E0) :
    F eigh level occ entropy s T N u ≤ E0 ∧ E0 ≤ F eigh level occ entropy s T N u + 2 * nb * B * T := by
  constructor
  · refine (le_isGLB_iff h0).2 ?_
    rintro x ⟨ρ, hρ, rfl⟩
    exact C188_upper hT hw h u hρ
  · obtain ⟨hd, he⟩ := C188_thermal (entropy := entropy) hT h01 hl h u
    have h1 := h0.1 ⟨_, hd, he⟩
    have hN : (0 : ℝ) < (n1 * n2 * n3 : Nat) :=
      Nat.cast_pos.2 (Nat.pos_of_ne_zero (Nat.mul_ne_zero (Nat.mul_ne_zero (NeZero.ne n1) (NeZero.ne n2)) (NeZero.ne n3)))
    have hS : S eigh level entropy s T N u ≤ 2 * nb * B := by
      have h2 : ∑ k : Mesh n1 n2 n3, ∑ n : Fin nb, entropy ((bands eigh s u k n - M eigh level s T N u) / T) ≤
          ∑ _k : Mesh n1 n2 n3, ∑ _n : Fin nb, B := Finset.sum_le_sum fun k _ => Finset.sum_le_sum fun n _ => hB _
      have h3 : ∑ _k : Mesh n1 n2 n3, ∑ _n : Fin nb, B = (n1 * n2 * n3 : Nat) * (nb * B) := by
        have hcard : Fintype.card (Mesh n1 n2 n3) = n1 * n2 * n3 := by simp [Mesh, mul_assoc]
        rw [Finset.sum_const, Finset.sum_const, Finset.card_univ, Finset.card_univ, hcard, Fintype.card_fin, nsmul_eq_mul, nsmul_eq_mul]
      rw [h3] at h2
      rw [S_eq]
      refine (mul_le_mul_of_nonneg_left h2 (show (0 : ℝ) ≤ 2 / (n1 * n2 * n3 : Nat) by positivity)).trans (le_of_eq ?_)
      field_simp
    have := mul_le_mul_of_nonneg_left hS hT.le
    linarith

/-- **C188**: for vanishing temperature, the free energy converges to the energy of the ground state. -/
theorem C188_limit {N B : ℝ} (h01 : ∀ x, 0 ≤ occ x ∧ occ x ≤ 1) (hw : ∀ y, occ y * y - entropy y ≤ 0 ∧ occ y * y - entropy y ≤ y)
    (hB : ∀ x, entropy x ≤ B) (hl : ∀ T, 0 < T → Level level occ T N) (h : Solver eigh s) (u : X nat → ℝ) :
    ∃ E0, IsGLB {x | ∃ ρ : Mesh n1 n2 n3 → Matrix (Fin nb) (Fin nb) ℂ, Density N ρ ∧ energy s u ρ = x} E0 ∧
      Tendsto (fun T => F eigh level occ entropy s T N u) (𝓝[>] 0) (𝓝 E0) := by
  have hne : {x | ∃ ρ : Mesh n1 n2 n3 → Matrix (Fin nb) (Fin nb) ℂ, Density N ρ ∧ energy s u ρ = x}.Nonempty :=
    ⟨_, _, thermal_density h01 (hl 1 one_pos) h u, rfl⟩
  have hbd : BddBelow {x | ∃ ρ : Mesh n1 n2 n3 → Matrix (Fin nb) (Fin nb) ℂ, Density N ρ ∧ energy s u ρ = x} := by
    refine ⟨F eigh level occ entropy s 1 N u, ?_⟩
    rintro x ⟨ρ, hρ, rfl⟩
    exact C188_upper one_pos hw h u hρ
  refine ⟨_, isGLB_csInf hne hbd, ?_⟩
  have key := fun (T : ℝ) (hT : 0 < T) => C188_bracket hT h01 hw hB (hl T hT) h u (isGLB_csInf hne hbd)
  set E0 := sInf {x | ∃ ρ : Mesh n1 n2 n3 → Matrix (Fin nb) (Fin nb) ℂ, Density N ρ ∧ energy s u ρ = x}
  have hlow : Tendsto (fun T : ℝ => E0 - 2 * nb * B * T) (𝓝[>] 0) (𝓝 E0) := by
    have : Tendsto (fun T : ℝ => E0 - 2 * nb * B * T) (𝓝 0) (𝓝 (E0 - 2 * nb * B * 0)) := Continuous.tendsto (by fun_prop) 0
    rw [mul_zero, sub_zero] at this
    exact this.mono_left nhdsWithin_le_nhds
  refine tendsto_of_tendsto_of_tendsto_of_le_of_le' hlow tendsto_const_nhds ?_ ?_
  · filter_upwards [self_mem_nhdsWithin] with T hT
    linarith [(key T hT).2]
  · filter_upwards [self_mem_nhdsWithin] with T hT
    exact (key T hT).1

/-! ### Smearing functions -/

open Verif.Occ

/-- Hypotheses for exact Fermi-Dirac occupations. -/
theorem fermi_bounds : (∀ x, 0 ≤ fd x ∧ fd x ≤ 1) ∧ (∀ y, fd y * y - fdEntropy y ≤ 0 ∧ fd y * y - fdEntropy y ≤ y) ∧
    ∀ x, fdEntropy x ≤ Real.log 2 := by
  have h1 : ∀ x, fd x ≤ 1 := by
    intro x
    have := fd_pos (-x)
    rw [← one_sub_fd] at this
    linarith
  refine ⟨fun x => ⟨(fd_pos x).le, h1 x⟩, fun y => ?_, fun x => ?_⟩
  · rw [fdEntropy_form]
    have a := Real.log_nonpos (fd_pos y).le (h1 y)
    have b := Real.log_nonpos (fd_pos (-y)).le (h1 (-y))
    rw [log_fd_neg] at b
    constructor <;> linarith
  · have hd := fdEntropy_deriv
    have hpos : ∀ x, 0 < fdDelta x := fun x => by
      unfold fdDelta
      have := Real.cosh_pos x
      positivity
    have h0 : fdEntropy 0 = Real.log 2 := by
      rw [fdEntropy_form]
      unfold fd
      rw [Real.exp_zero, one_div, Real.log_inv]
      norm_num
    rw [← h0]
    exact max_at_zero hd (fun x => (hpos x).le) x

theorem gaussDelta_top : Tendsto (fun x => x * gaussDelta x) atTop (𝓝 0) := by
  have h1 : Tendsto (fun x : ℝ => x * Real.exp (-x)) atTop (𝓝 0) := by
    simpa using Real.tendsto_pow_mul_exp_neg_atTop_nhds_zero 1
  have h2 : Tendsto (fun x : ℝ => x * Real.exp (-x) / Real.sqrt Real.pi) atTop (𝓝 0) := by
    simpa using h1.div_const (Real.sqrt Real.pi)
  refine tendsto_of_tendsto_of_tendsto_of_le_of_le' tendsto_const_nhds h2 ?_ ?_
  · filter_upwards [eventually_ge_atTop 0] with x hx
    exact mul_nonneg hx (gaussDelta_pos x).le
  · filter_upwards [eventually_ge_atTop 1] with x hx
    unfold gaussDelta
    rw [← mul_div_assoc]
    refine div_le_div_of_nonneg_right (mul_le_mul_of_nonneg_left (Real.exp_le_exp.2 (by nlinarith)) (by linarith)) (Real.sqrt_nonneg _)

theorem gaussDelta_zero : Tendsto gaussDelta atTop (𝓝 0) := by
  refine tendsto_of_tendsto_of_tendsto_of_le_of_le' tendsto_const_nhds gaussDelta_top ?_ ?_
  · exact Eventually.of_forall fun x => (gaussDelta_pos x).le
  · filter_upwards [eventually_ge_atTop 1] with x hx
    nlinarith [gaussDelta_pos x]

theorem gauss_le (x : ℝ) (hx : 1 ≤ x) : gauss x ≤ gaussDelta x := by
  have hd : ∀ y, HasDerivAt (fun y => gaussDelta y - gauss y) (gaussDeltaPrime y - -gaussDelta y) y := fun y => (C36_gauss y).2.sub (C36_gauss y).1
  have ha : AntitoneOn (fun y => gaussDelta y - gauss y) (Set.Ici 1) := by
    refine antitoneOn_of_deriv_nonpos (convex_Ici 1) (continuous_iff_continuousAt.2 fun x => (hd x).continuousAt).continuousOn
      (fun y _ => (hd y).differentiableAt.differentiableWithinAt) fun y hy => ?_
    rw [interior_Ici] at hy
    have hy' : 1 < y := hy
    rw [(hd y).deriv]
    have : gaussDeltaPrime y = -2 * y * gaussDelta y := by
      unfold gaussDeltaPrime gaussDelta
      ring
    rw [this]
    nlinarith [gaussDelta_pos y]
  have hlim : Tendsto (fun y => gaussDelta y - gauss y) atTop (𝓝 0) := by
    simpa using gaussDelta_zero.sub C35_gauss.top
  have : 0 ≤ gaussDelta x - gauss x := by
    refine le_of_tendsto hlim ?_
    filter_upwards [eventually_ge_atTop x] with y hy
    exact ha (Set.mem_Ici.2 hx) (Set.mem_Ici.2 (hx.trans hy)) hy
  linarith

theorem gauss_nonpos (y : ℝ) : gauss y * y - gaussEntropy y ≤ 0 := by
  have hd : ∀ y, HasDerivAt (fun y => gauss y * y - gaussEntropy y) (gauss y) y := by
    intro y
    refine (((C36_gauss y).1.mul (hasDerivAt_id y)).sub (C37_gauss y)).congr_deriv ?_
    simp only [id]
    ring
  have hm : Monotone fun y => gauss y * y - gaussEntropy y :=
    monotone_of_deriv_nonneg (fun y => (hd y).differentiableAt) fun y => by
      rw [(hd y).deriv]
      exact (C35_gauss.pos y).le
  have hlim : Tendsto (fun y => gauss y * y - gaussEntropy y) atTop (𝓝 0) := by
    have h1 : Tendsto (fun y => gauss y * y) atTop (𝓝 0) := by
      refine tendsto_of_tendsto_of_tendsto_of_le_of_le' tendsto_const_nhds gaussDelta_top ?_ ?_
      · filter_upwards [eventually_ge_atTop 0] with x hx
        exact mul_nonneg (C35_gauss.pos x).le hx
      · filter_upwards [eventually_ge_atTop 1] with x hx
        rw [mul_comm]
        exact mul_le_mul_of_nonneg_left (gauss_le x hx) (by linarith)
    have h2 : Tendsto gaussEntropy atTop (𝓝 0) := by
      have := gaussDelta_zero.div_const 2
      rw [zero_div] at this
      exact this
    simpa using h1.sub h2
  exact hm.ge_of_tendsto hlim y

/-- Hypotheses for Gaussian smearing. -/
theorem gauss_bounds : (∀ x, 0 ≤ gauss x ∧ gauss x ≤ 1) ∧ (∀ y, gauss y * y - gaussEntropy y ≤ 0 ∧ gauss y * y - gaussEntropy y ≤ y) ∧
    ∀ x, gaussEntropy x ≤ 1 / (2 * Real.sqrt Real.pi) := by
  refine ⟨fun x => ⟨(C35_gauss.pos x).le, (C35_gauss.lt_one x).le⟩, fun y => ⟨gauss_nonpos y, ?_⟩, fun x => ?_⟩
  · have h1 := gauss_nonpos (-y)
    have h2 := C35_gauss.symm y
    have h3 : gaussEntropy (-y) = gaussEntropy y := by
      unfold gaussEntropy gaussDelta
      ring_nf
    rw [h3, show gauss (-y) = 1 - gauss y by linarith] at h1
    linarith
  · have h0 : gaussEntropy 0 = 1 / (2 * Real.sqrt Real.pi) := by
      unfold gaussEntropy gaussDelta
      rw [mul_zero, Real.exp_zero]
      field_simp
    rw [← h0]
    exact max_at_zero C37_gauss (fun x => (gaussDelta_pos x).le) x

/-- For Gaussian smearing, all hypotheses are met by any driver with Hermitian matrices and the free energy converges to that of the ground state. -/
theorem example_ground [NeZero nb] (s : Driver n1 n2 n3 nb nat nq) (h1 : ∀ k, (s.H0 k)ᴴ = s.H0 k) (h2 : ∀ x k, (s.d0 0 x k)ᴴ = s.d0 0 x k) {N : ℝ}
    (h3 : 0 < N) (h4 : N < 2 * nb) (u : X nat → ℝ) :
    ∃ (eigh : Matrix (Fin nb) (Fin nb) ℂ → (Fin nb → ℝ) × Matrix (Fin nb) (Fin nb) ℂ) (level : ℝ → ℝ → (Mesh n1 n2 n3 → Fin nb → ℝ) → ℝ) (E0 : ℝ),
      Solver eigh s ∧ (∀ T, 0 < T → Level level gauss T N) ∧
      IsGLB {x | ∃ ρ : Mesh n1 n2 n3 → Matrix (Fin nb) (Fin nb) ℂ, Density N ρ ∧ energy s u ρ = x} E0 ∧
      Tendsto (fun T => F eigh level gauss gaussEntropy s T N u) (𝓝[>] 0) (𝓝 E0) := by
  obtain ⟨eigh, level, heigh, hl, -⟩ := example_thermo (n1 := n1) (n2 := n2) (n3 := n3) (nb := nb)
  have hS : Solver eigh s := ⟨fun A hA => (heigh A hA).eig, fun A hA => (heigh A hA).unitary, h1, h2⟩
  have hl' : ∀ T, 0 < T → Level level gauss T N := fun T hT => (hl T N hT h3 h4).self_of_nhds
  obtain ⟨E0, a, b⟩ := C188_limit gauss_bounds.1 gauss_bounds.2.1 gauss_bounds.2.2 hl' hS u
  exact ⟨eigh, level, E0, hS, hl', a, b⟩

/-- Two levels with two electrons per cell: the ground state is that with the lower level filled. -/
example : ∃ (s : Driver 1 1 1 2 1 0) (ρ : Mesh 1 1 1 → Matrix (Fin 2) (Fin 2) ℂ), (∀ k, (s.H0 k)ᴴ = s.H0 k) ∧ (∀ x k, (s.d0 0 x k)ᴴ = s.d0 0 x k) ∧
    Density 2 ρ ∧ energy s (fun _ => 0) ρ = -2 := by
  refine ⟨Driver.mk 1 2 (fun _ _ => 0) (fun _ => diagonal fun n => if n = 0 then -1 else 1) (fun _ _ _ => 0) (fun _ _ _ => 0) (fun _ => 0)
    (fun _ => 0) (fun _ _ => 0) (fun _ => 1) 0,
    fun _ => diagonal fun n => if n = 0 then 1 else 0, ?_, ?_, ⟨?_, ?_, ?_⟩, ?_⟩
  · intro k
    ext i j
    fin_cases i <;> fin_cases j <;> simp
  · intro x k
    simp
  · intro k
    refine PosSemidef.diagonal fun n => ?_
    fin_cases n <;> simp
  · intro k
    rw [← diagonal_one, diagonal_sub]
    refine PosSemidef.diagonal fun n => ?_
    fin_cases n <;> simp
  · simp [Matrix.trace, Fin.sum_univ_two]
  · simp [energy, Matrix.trace, Fin.sum_univ_two, Matrix.mul_apply, diagonal_apply]

end Verif.MD.Ground
