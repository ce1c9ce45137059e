import Verif.Bands.Props
import Verif.TB.Spectrum

/-!
# Property C178: unfolding recovers the band structure of the unit cell
-/

namespace Verif.Bands.Unfold

open Verif.Lattice (V3 Supercell detSpec)
open Verif.Fourier (phase bloch)
open Verif.TB (Blocks dynMat superK Unfolds cellMatrix)
open Verif.Diag.Derivatives (Congr sum_cells)

variable {c d : Nat} {β : Type} [Fintype β]

/-! ## Specification -/

/-- Eigenvalues and a complete set of orthonormal eigenvectors of a matrix. -/
structure Eigen {X Y : Type} [Fintype X] [Fintype Y] [DecidableEq X] [DecidableEq Y] (H : X → X → ℂ) (E : Y → ℝ) (U : X → Y → ℂ) : Prop where
  rows : RowsOrthonormal U
  columns : ColumnsOrthonormal U
  eigen : ∀ x n, ∑ y, H x y * U y n = E n * U x n

/-- Positions of the cells, in units of the primitive lattice vectors (the attribute `cells` of supercell models). -/
def positions (s : Supercell) : Fin s.cells.length → Fin 3 → ℝ := fun r i =>
  let R := s.cells.getD r (0, 0, 0)
  (![R.1, R.2.1, R.2.2] i : Int)

/-- Unfolding weights for a supercell and the default sign. -/
noncomputable def w (s : Supercell) (k : Fin 3 → ℝ) (U0 : Fin d → Fin d → ℂ) (U : Fin s.cells.length × Fin d → β → ℂ) (n : β) : ℝ :=
  unfoldingWeight (Fintype.card β) (-1) k (positions s) U0 U n

/-! ## Lemmas -/

theorem cellPhase_eq (s : Supercell) (k : Fin 3 → ℝ) (r : Fin s.cells.length) :
    star (cellPhase (-1) k (positions s) r) = phase (s.cells.getD r (0, 0, 0)) k := by
  rw [star_cellPhase]
  unfold phase positions
  congr 2
  rw [Fin.sum_univ_three]
  simp
  ring

/-- A complete set of states contains any state. -/
theorem parseval {X : Type} [Fintype X] [DecidableEq X] (U : X → β → ℂ) (hU : RowsOrthonormal U) (f : X → ℂ) :
    ∑ n, ‖∑ x, star (f x) * U x n‖ ^ 2 = ∑ x, ‖f x‖ ^ 2 := by
  apply Complex.ofReal_injective
  rw [Complex.ofReal_sum, Complex.ofReal_sum]
  have e : ∀ n, ((‖∑ x, star (f x) * U x n‖ ^ 2 : ℝ) : ℂ) = ∑ x, ∑ y, star (f x) * f y * (U x n * star (U y n)) := by
    intro n
    rw [← Complex.normSq_eq_norm_sq, ← Complex.mul_conj, map_sum, Finset.sum_mul_sum]
    refine Finset.sum_congr rfl fun x _ => Finset.sum_congr rfl fun y _ => ?_
    rw [map_mul]
    simp only [starRingEnd_apply, star_star]
    ring
  simp only [e]
  rw [Finset.sum_comm]
  refine Finset.sum_congr rfl fun x _ => ?_
  rw [Finset.sum_comm]
  simp only [← Finset.mul_sum, hU x]
  rw [← Complex.normSq_eq_norm_sq, ← Complex.mul_conj]
  simp [mul_comm]

theorem Eigen.hermitian {X Y : Type} [Fintype X] [Fintype Y] [DecidableEq X] [DecidableEq Y] {H : X → X → ℂ} {E : Y → ℝ} {U : X → Y → ℂ}
    (h : Eigen H E U) (x y : X) : star (H x y) = H y x := by
  have key : ∀ x y, H x y = ∑ n, E n * (U x n * star (U y n)) := by
    intro x y
    have h1 : H x y = ∑ z, H x z * ∑ n, U z n * star (U y n) := by
      simp only [h.rows _ y]
      simp
    rw [h1]
    simp only [Finset.mul_sum]
    rw [Finset.sum_comm]
    refine Finset.sum_congr rfl fun n _ => ?_
    rw [← mul_assoc, ← h.eigen x n, Finset.sum_mul]
    exact Finset.sum_congr rfl fun z _ => by ring
  rw [key x y, key y x, star_sum]
  refine Finset.sum_congr rfl fun n _ => ?_
  rw [star_mul', star_mul', star_star]
  rw [show star ((E n : ℝ) : ℂ) = (E n : ℂ) from Complex.conj_ofReal _]
  ring

/-- Overlap of a state and the image of another one. -/
theorem overlap {X : Type} [Fintype X] [DecidableEq X] [DecidableEq β] {H : X → X → ℂ} {E : β → ℝ} {U : X → β → ℂ} (h : Eigen H E U) (φ : X → ℂ) (e : ℝ)
    (n : β) : ∑ x, star (∑ y, H x y * φ y - e * φ x) * U x n = ((E n - e : ℝ) : ℂ) * ∑ x, star (φ x) * U x n := by
  have h1 : ∑ x, star (∑ y, H x y * φ y) * U x n = E n * ∑ x, star (φ x) * U x n := by
    simp only [star_sum, Finset.sum_mul, Finset.mul_sum]
    rw [Finset.sum_comm]
    refine Finset.sum_congr rfl fun y _ => ?_
    rw [show (E n : ℂ) * (star (φ y) * U y n) = star (φ y) * (E n * U y n) by ring, ← h.eigen y n, Finset.mul_sum]
    refine Finset.sum_congr rfl fun x _ => ?_
    rw [star_mul', h.hermitian]
    ring
  simp only [star_sub, sub_mul, Finset.sum_sub_distrib, h1]
  have h2 : ∑ x, star ((e : ℂ) * φ x) * U x n = e * ∑ x, star (φ x) * U x n := by
    rw [Finset.mul_sum]
    refine Finset.sum_congr rfl fun x _ => ?_
    rw [star_mul', show star ((e : ℝ) : ℂ) = (e : ℂ) from Complex.conj_ofReal _]
    ring
  rw [h2]
  push_cast
  ring

/-- Deviation of a state from an eigenstate. -/
theorem variance {X : Type} [Fintype X] [DecidableEq X] [DecidableEq β] {H : X → X → ℂ} {E : β → ℝ} {U : X → β → ℂ} (h : Eigen H E U) (φ : X → ℂ) (e : ℝ) :
    ∑ n, (E n - e) ^ 2 * ‖∑ x, star (φ x) * U x n‖ ^ 2 = ∑ x, ‖∑ y, H x y * φ y - e * φ x‖ ^ 2 := by
  rw [← parseval U h.rows]
  refine Finset.sum_congr rfl fun n _ => ?_
  rw [overlap h, norm_mul, mul_pow, Complex.norm_real, Real.norm_eq_abs, sq_abs]

theorem card_of_eigen {X Y : Type} [Fintype X] [Fintype Y] [DecidableEq X] [DecidableEq Y] {H : X → X → ℂ} {E : Y → ℝ} {U : X → Y → ℂ}
    (h : Eigen H E U) : Fintype.card Y = Fintype.card X := by
  have h1 : ∑ n, ∑ x, (‖U x n‖ ^ 2 : ℝ) = Fintype.card Y := by
    have : ∀ n, ∑ x, (‖U x n‖ ^ 2 : ℝ) = 1 := by
      intro n
      apply Complex.ofReal_injective
      have h2 := h.columns n n
      rw [if_pos rfl] at h2
      rw [Complex.ofReal_sum, Complex.ofReal_one, ← h2]
      refine Finset.sum_congr rfl fun x _ => ?_
      rw [← Complex.normSq_eq_norm_sq, ← Complex.mul_conj, mul_comm]
      rfl
    simp [this]
  have h3 : ∑ x, ∑ n, (‖U x n‖ ^ 2 : ℝ) = Fintype.card X := by
    have : ∀ x, ∑ n, (‖U x n‖ ^ 2 : ℝ) = 1 := by
      intro x
      apply Complex.ofReal_injective
      have h2 := h.rows x x
      rw [if_pos rfl] at h2
      rw [Complex.ofReal_sum, Complex.ofReal_one, ← h2]
      refine Finset.sum_congr rfl fun n _ => ?_
      rw [← Complex.normSq_eq_norm_sq, ← Complex.mul_conj]
      rfl
    simp [this]
  rw [Finset.sum_comm, h3] at h1
  exact_mod_cast h1.symm

variable [DecidableEq β]

theorem w_eq (s : Supercell) {H : Fin s.cells.length × Fin d → Fin s.cells.length × Fin d → ℂ} {E : β → ℝ} {U : Fin s.cells.length × Fin d → β → ℂ}
    (h : Eigen H E U) (k : Fin 3 → ℝ) (U0 : Fin d → Fin d → ℂ) (n : β) :
    w s k U0 U n = ∑ m, ‖∑ x, star (blochState (cellPhase (-1) k (positions s)) U0 m x) * U x n‖ ^ 2 :=
  weight_eq _ (by rw [card_of_eigen h]; simp) _ _ _ _

/-- Bloch states are eigenstates of perfect supercells. -/
theorem bloch_eigen (s : Supercell) (H : Fin s.cells.length × Fin d → Fin s.cells.length × Fin d → ℂ) (h0 : Fin d → Fin d → ℂ) (k : Fin 3 → ℝ)
    (hfold : ∀ i a b, ∑ j : Fin s.cells.length, phase (s.cells.getD j (0, 0, 0)) k * H (i, a) (j, b) = phase (s.cells.getD i (0, 0, 0)) k * h0 a b)
    (e0 : Fin d → ℝ) (U0 : Fin d → Fin d → ℂ) (he : Eigen h0 e0 U0) (m : Fin d) (x : Fin s.cells.length × Fin d) :
    ∑ y, H x y * blochState (cellPhase (-1) k (positions s)) U0 m y = e0 m * blochState (cellPhase (-1) k (positions s)) U0 m x := by
  obtain ⟨i, a⟩ := x
  simp only [blochState, cellPhase_eq]
  rw [Fintype.sum_prod_type_right]
  have h1 : ∀ b, ∑ j : Fin s.cells.length, H (i, a) (j, b) * (phase (s.cells.getD j (0, 0, 0)) k * U0 b m / (Real.sqrt s.cells.length : ℂ)) =
      phase (s.cells.getD i (0, 0, 0)) k / (Real.sqrt s.cells.length : ℂ) * (h0 a b * U0 b m) := by
    intro b
    rw [show phase (s.cells.getD i (0, 0, 0)) k / (Real.sqrt s.cells.length : ℂ) * (h0 a b * U0 b m) =
      phase (s.cells.getD i (0, 0, 0)) k * h0 a b * (U0 b m / (Real.sqrt s.cells.length : ℂ)) by ring, ← hfold i a b, Finset.sum_mul]
    exact Finset.sum_congr rfl fun j _ => by ring
  rw [Finset.sum_congr rfl fun b _ => h1 b, ← Finset.mul_sum, he.eigen a m]
  ring

/-! ## General form -/

theorem unfold_general (s : Supercell) (hc : 0 < s.cells.length) (H : Fin s.cells.length × Fin d → Fin s.cells.length × Fin d → ℂ)
    (h0 : Fin d → Fin d → ℂ) (k : Fin 3 → ℝ)
    (hfold : ∀ i a b, ∑ j : Fin s.cells.length, phase (s.cells.getD j (0, 0, 0)) k * H (i, a) (j, b) = phase (s.cells.getD i (0, 0, 0)) k * h0 a b)
    (e0 : Fin d → ℝ) (U0 : Fin d → Fin d → ℂ) (he : Eigen h0 e0 U0) (E : β → ℝ) (U : Fin s.cells.length × Fin d → β → ℂ) (hE : Eigen H E U) (f : ℝ → ℝ) :
    ∑ n, w s k U0 U n * f (E n) = ∑ m, f (e0 m) := by
  simp only [w_eq s hE, Finset.sum_mul]
  rw [Finset.sum_comm]
  refine Finset.sum_congr rfl fun m _ => ?_
  set φ := blochState (cellPhase (-1) k (positions s)) U0 m with hφ
  have h1 := bloch_eigen s H h0 k hfold e0 U0 he m
  have h2 : ∀ n, ‖∑ x, star (φ x) * U x n‖ ^ 2 * f (E n) = ‖∑ x, star (φ x) * U x n‖ ^ 2 * f (e0 m) := by
    intro n
    have h3 := overlap hE φ (e0 m) n
    rw [Finset.sum_eq_zero fun x _ => by rw [h1 x, sub_self, star_zero, zero_mul]] at h3
    rcases mul_eq_zero.1 h3.symm with h4 | h4
    · rw [Complex.ofReal_eq_zero, sub_eq_zero] at h4
      rw [h4]
    · rw [h4]
      simp
  rw [Finset.sum_congr rfl fun n _ => h2 n, ← Finset.sum_mul, parseval U hE.rows]
  have h5 := bloch_orthonormal (cellPhase (-1) k (positions s)) (norm_cellPhase _ _ _) hc U0 he.columns m m
  rw [if_pos rfl] at h5
  have h6 : ∑ x, ‖φ x‖ ^ 2 = 1 := by
    apply Complex.ofReal_injective
    rw [Complex.ofReal_sum, Complex.ofReal_one, ← h5]
    refine Finset.sum_congr rfl fun x _ => ?_
    rw [← Complex.normSq_eq_norm_sq, ← Complex.mul_conj, mul_comm]
    rfl
  rw [h6, one_mul]

theorem cells_pos {N1 N2 N3 : V3} (hD : detSpec N1 N2 N3 ≠ 0) {s : Supercell} (hs : Verif.Lattice.supercell N1 N2 N3 = some s) : 0 < s.cells.length := by
  obtain ⟨s', hs', -, -, -, -, h3, -⟩ := Verif.Lattice.C17_supercell N1 N2 N3 hD
  rw [hs] at hs'
  obtain rfl := Option.some.inj hs'
  rw [h3]
  exact Int.natAbs_pos.2 hD

/-! ## Properties -/

section electrons

variable (N1 N2 N3 : V3) (hD : detSpec N1 N2 N3 ≠ 0) (s : Supercell) (hs : Verif.Lattice.supercell N1 N2 N3 = some s) (l : Blocks (Fin d) ℂ)
  (hnd : (l.map Prod.fst).Nodup) (m : Blocks (Nat × Fin d) ℂ) (hm : Verif.TB.supercell s l = some m) (k : Fin 3 → ℝ) (e0 : Fin d → ℝ)
  (U0 : Fin d → Fin d → ℂ) (he : Eigen (bloch l k) e0 U0) (E : β → ℝ) (U : Fin s.cells.length × Fin d → β → ℂ)
  (hE : Eigen (cellMatrix (bloch m (superK N1 N2 N3 k))) E U)

include hD hs hnd hm

theorem folded_el (i : Fin s.cells.length) (a b : Fin d) : ∑ j : Fin s.cells.length, phase (s.cells.getD j (0, 0, 0)) k *
    cellMatrix (n := s.cells.length) (bloch m (superK N1 N2 N3 k)) (i, a) (j, b) = phase (s.cells.getD i (0, 0, 0)) k * bloch l k a b := by
  have h1 := Verif.TB.C42_folding N1 N2 N3 hD s hs l hnd m hm k i i.2 a b
  rw [Finset.sum_range] at h1
  exact h1

include he hE

/-- **C178**: for the perfect supercell, the spectrum of the supercell at the folded wave vector, weighted with the unfolding weights, is the spectrum of
the unit cell at the given wave vector: sums of any function of energies, e.g., broadened spectral functions, agree, for any diagonalizations, ... -/
theorem C178_spectrum (f : ℝ → ℝ) : ∑ n, w s k U0 U n * f (E n) = ∑ b, f (e0 b) :=
  unfold_general s (cells_pos hD hs) _ (bloch l k) k (folded_el N1 N2 N3 hD s hs l hnd m hm k) e0 U0 he E U hE f

/-- **C178**: ... hence, at each energy, weights sum up to the number of bands of the unit cell, ... -/
theorem C178_multiplicity (ε : ℝ) : ∑ n with E n = ε, w s k U0 U n = (Finset.univ.filter fun b => e0 b = ε).card := by
  have h1 := C178_spectrum N1 N2 N3 hD s hs l hnd m hm k e0 U0 he E U hE fun x => if x = ε then 1 else 0
  rw [Finset.sum_filter]
  simpa using h1

/-- **C178**: ... and only states with energies of the unit cell at the given wave vector are seen. -/
theorem C178_energies (n : β) (hw : w s k U0 U n ≠ 0) : ∃ b, e0 b = E n := by
  by_contra hne
  have h1 := C178_multiplicity N1 N2 N3 hD s hs l hnd m hm k e0 U0 he E U hE (E n)
  have h2 : (Finset.univ.filter fun b => e0 b = E n) = ∅ := by
    rw [Finset.filter_eq_empty_iff]
    exact fun b _ hb => hne ⟨b, hb⟩
  rw [h2, Finset.card_empty, Nat.cast_zero] at h1
  exact hw ((Finset.sum_eq_zero_iff_of_nonneg (fun n _ => (C68_nonneg _ _ _ _ _ _ n : 0 ≤ w s k U0 U n))).1 h1 n (by simp))

end electrons

/-- **C178**: the same for phonons (squared frequencies). -/
theorem C178_spectrum_ph (N1 N2 N3 : V3) (hD : detSpec N1 N2 N3 ≠ 0) (s : Supercell) (hs : Verif.Lattice.supercell N1 N2 N3 = some s)
    (l : Blocks (Fin d) ℝ) (hnd : (l.map Prod.fst).Nodup) (m : Blocks (Nat × Fin d) ℝ) (hm : Verif.TB.supercell s l = some m) (q : Fin 3 → ℝ)
    (w0 : Fin d → ℝ) (u0 : Fin d → Fin d → ℂ) (h0 : Eigen (dynMat l q) w0 u0) (w2 : β → ℝ) (u : Fin s.cells.length × Fin d → β → ℂ)
    (hu : Eigen (cellMatrix (dynMat m (superK N1 N2 N3 q))) w2 u) (f : ℝ → ℝ) : ∑ n, w s q u0 u n * f (w2 n) = ∑ b, f (w0 b) := by
  refine unfold_general s (cells_pos hD hs) _ (dynMat l q) q (fun i a b => ?_) w0 u0 h0 w2 u hu f
  have h1 := Verif.TB.C42_folding_ph N1 N2 N3 hD s hs l hnd m hm q i i.2 a b
  rw [Finset.sum_range] at h1
  exact h1

/-- **C178**: for a distorted supercell with any matrix `H` that differs from the one of the perfect supercell by at most `δ` (as an operator), at most the
weight `d δ² / Δ²` is found further than `Δ` away from all energies of the unit cell. -/
theorem C178_distorted (N1 N2 N3 : V3) (hD : detSpec N1 N2 N3 ≠ 0) (s : Supercell) (hs : Verif.Lattice.supercell N1 N2 N3 = some s)
    (l : Blocks (Fin d) ℂ) (hnd : (l.map Prod.fst).Nodup) (m : Blocks (Nat × Fin d) ℂ) (hm : Verif.TB.supercell s l = some m) (k : Fin 3 → ℝ)
    (e0 : Fin d → ℝ) (U0 : Fin d → Fin d → ℂ) (he : Eigen (bloch l k) e0 U0) (H : Fin s.cells.length × Fin d → Fin s.cells.length × Fin d → ℂ)
    (E : β → ℝ) (U : Fin s.cells.length × Fin d → β → ℂ) (hE : Eigen H E U) (δ Δ : ℝ) (hΔ : 0 < Δ)
    (hδ : ∀ φ : Fin s.cells.length × Fin d → ℂ, ∑ x, ‖φ x‖ ^ 2 = 1 →
      ∑ x, ‖∑ y, (H x y - cellMatrix (n := s.cells.length) (bloch m (superK N1 N2 N3 k)) x y) * φ y‖ ^ 2 ≤ δ ^ 2) :
    ∑ n with (∀ b, Δ ≤ |E n - e0 b|), w s k U0 U n ≤ d * (δ / Δ) ^ 2 := by
  have hc := cells_pos hD hs
  simp only [w_eq s hE]
  rw [Finset.sum_comm]
  have key : ∀ b : Fin d, ∑ n with (∀ b, Δ ≤ |E n - e0 b|), ‖∑ x, star (blochState (cellPhase (-1) k (positions s)) U0 b x) * U x n‖ ^ 2 ≤ (δ / Δ) ^ 2 := by
    intro b
    set φ := blochState (cellPhase (-1) k (positions s)) U0 b with hφ
    have h1 := bloch_eigen s _ _ k (folded_el N1 N2 N3 hD s hs l hnd m hm k) e0 U0 he b
    have h5 := bloch_orthonormal (cellPhase (-1) k (positions s)) (norm_cellPhase _ _ _) hc U0 he.columns b b
    rw [if_pos rfl] at h5
    have h6 : ∑ x, ‖φ x‖ ^ 2 = 1 := by
      apply Complex.ofReal_injective
      rw [Complex.ofReal_sum, Complex.ofReal_one, ← h5]
      refine Finset.sum_congr rfl fun x _ => ?_
      rw [← Complex.normSq_eq_norm_sq, ← Complex.mul_conj, mul_comm]
      rfl
    have h7 : ∑ n, (E n - e0 b) ^ 2 * ‖∑ x, star (φ x) * U x n‖ ^ 2 ≤ δ ^ 2 := by
      rw [variance hE]
      refine le_trans (le_of_eq (Finset.sum_congr rfl fun x _ => ?_)) (hδ φ h6)
      rw [hφ, ← h1 x, ← Finset.sum_sub_distrib]
      simp only [sub_mul]
    rw [div_pow, le_div_iff₀ (by positivity), Finset.sum_mul]
    refine le_trans (Finset.sum_le_sum (g := fun n => (E n - e0 b) ^ 2 * ‖∑ x, star (φ x) * U x n‖ ^ 2) fun n hn => ?_) (le_trans
      (Finset.sum_le_sum_of_subset_of_nonneg (Finset.filter_subset _ _) fun n _ _ => by positivity) h7)
    have h8 := (Finset.mem_filter.1 hn).2 b
    have h9 : Δ ^ 2 ≤ (E n - e0 b) ^ 2 := by
      rw [← sq_abs (E n - e0 b)]
      exact pow_le_pow_left₀ hΔ.le h8 2
    rw [mul_comm]
    exact mul_le_mul_of_nonneg_right h9 (by positivity)
  refine le_trans (Finset.sum_le_sum fun b _ => key b) ?_
  simp

/-- Bloch states with all wave vectors folded onto the same one are a complete set of states of the supercell. -/
theorem bloch_complete (N1 N2 N3 : V3) (hD : detSpec N1 N2 N3 ≠ 0) (s : Supercell) (hs : Verif.Lattice.supercell N1 N2 N3 = some s) (K : Fin 3 → ℝ)
    (ks : List (Fin 3 → ℝ)) (hks : Unfolds (superK N1 N2 N3) K ks) (U0 : (Fin 3 → ℝ) → Fin d → Fin d → ℂ) (h0 : ∀ k ∈ ks, ColumnsOrthonormal (U0 k)) :
    ∃ kf : Fin s.cells.length → Fin 3 → ℝ, ks = List.ofFn kf ∧ (∀ j, Congr (superK N1 N2 N3 (kf j)) K) ∧
      RowsOrthonormal (fun x (y : Fin s.cells.length × Fin d) => blochState (cellPhase (-1) (kf y.1) (positions s)) (U0 (kf y.1)) y.2 x) ∧
      ColumnsOrthonormal (fun x (y : Fin s.cells.length × Fin d) => blochState (cellPhase (-1) (kf y.1) (positions s)) (U0 (kf y.1)) y.2 x) := by
  have hc := cells_pos hD hs
  have hlen : ks.length = s.cells.length := by
    obtain ⟨ks', h1, h2⟩ := Verif.TB.C42_unfolds N1 N2 N3 hD K
    obtain ⟨s', hs', -, -, -, -, h3, -⟩ := Verif.Lattice.C17_supercell N1 N2 N3 hD
    rw [hs] at hs'
    obtain rfl := Option.some.inj hs'
    rw [hks.length_eq h1, h2, h3]
  let kf : Fin s.cells.length → Fin 3 → ℝ := fun j => ks[(j : ℕ)]'(by rw [hlen]; exact j.2)
  have hkf : ∀ j, kf j ∈ ks := fun j => List.getElem_mem _
  have hK : ∀ j, Congr (superK N1 N2 N3 (kf j)) K := fun j => (hks.mem _).1 ⟨_, List.getElem_mem _, Verif.TB.Congr.refl _⟩
  have hne : ∀ i j, i ≠ j → ¬ Congr (kf i) (kf j) := by
    intro i j hij
    rcases lt_or_gt_of_ne hij with hlt | hlt
    · exact List.pairwise_iff_getElem.1 hks.distinct _ _ _ _ hlt
    · exact fun hc => List.pairwise_iff_getElem.1 hks.distinct _ _ _ _ hlt hc.symm
  have h1 : ks = List.ofFn kf := by
    apply List.ext_getElem
    · rw [List.length_ofFn, hlen]
    · intro i h1 h2
      rw [List.getElem_ofFn]
  let φ : Fin s.cells.length × Fin d → Fin s.cells.length × Fin d → ℂ := fun x y => blochState (cellPhase (-1) (kf y.1) (positions s)) (U0 (kf y.1)) y.2 x
  have horth : ∀ j j', ∑ r : Fin s.cells.length, star (phase (s.cells.getD r (0, 0, 0)) (kf j)) * phase (s.cells.getD r (0, 0, 0)) (kf j') =
      if j = j' then (s.cells.length : ℂ) else 0 := by
    intro j j'
    have h1 : ∀ i : Fin s.cells.length, star (phase (s.cells.getD i (0, 0, 0)) (kf j)) * phase (s.cells.getD i (0, 0, 0)) (kf j') =
        phase (s.cells.getD i (0, 0, 0)) fun x => kf j' x - kf j x := by
      intro i
      rw [← Verif.TB.phase_neg]
      unfold phase
      rw [← Complex.exp_add]
      congr 1
      push_cast
      ring
    rw [Finset.sum_congr rfl fun i _ => h1 i]
    by_cases hj : j = j'
    · subst hj
      simp [phase]
    · rw [if_neg hj]
      refine sum_cells hD hs _ ?_ ?_
      · have h2 := (hK j').trans (hK j).symm
        rw [Verif.TB.congr_iff] at h2 ⊢
        obtain ⟨m, hm⟩ := h2
        refine ⟨m, ?_⟩
        funext x
        have h3 := congrFun hm x
        have h4 : superK N1 N2 N3 (fun x => kf j' x - kf j x) x = superK N1 N2 N3 (kf j') x - superK N1 N2 N3 (kf j) x := by
          unfold superK
          ring
        rw [h4, h3]
        ring
      · intro h2
        refine hne j' j (Ne.symm hj) ?_
        rw [Verif.TB.congr_iff] at h2 ⊢
        obtain ⟨m, hm⟩ := h2
        refine ⟨m, ?_⟩
        funext x
        have h3 := congrFun hm x
        linarith
  have hs2 : (Real.sqrt s.cells.length : ℂ) * (Real.sqrt s.cells.length : ℂ) = s.cells.length := by
    rw [← Complex.ofReal_mul, Real.mul_self_sqrt (Nat.cast_nonneg _)]
    simp
  have hc' : (s.cells.length : ℂ) ≠ 0 := by exact_mod_cast hc.ne'
  let Φ : Matrix (Fin s.cells.length × Fin d) (Fin s.cells.length × Fin d) ℂ := φ
  have hΦ : Matrix.conjTranspose Φ * Φ = 1 := by
    ext ⟨j, b⟩ ⟨j', b'⟩
    rw [Matrix.mul_apply, Fintype.sum_prod_type]
    have h2 : ∀ r a, Matrix.conjTranspose Φ (j, b) (r, a) * Φ (r, a) (j', b') =
        star (phase (s.cells.getD r (0, 0, 0)) (kf j)) * phase (s.cells.getD r (0, 0, 0)) (kf j') / s.cells.length * (star (U0 (kf j) a b) * U0 (kf j') a b') := by
      intro r a
      rw [Matrix.conjTranspose_apply]
      show star (blochState (cellPhase (-1) (kf j) (positions s)) (U0 (kf j)) b (r, a)) * blochState (cellPhase (-1) (kf j') (positions s)) (U0 (kf j')) b' (r, a) = _
      simp only [blochState, cellPhase_eq, star_div₀, star_mul']
      rw [show star ((Real.sqrt s.cells.length : ℝ) : ℂ) = (Real.sqrt s.cells.length : ℂ) from Complex.conj_ofReal _, div_mul_div_comm, hs2]
      ring
    simp only [h2]
    simp only [← Finset.mul_sum]
    rw [← Finset.sum_mul, ← Finset.sum_div, horth]
    by_cases hj : j = j'
    · subst hj
      rw [if_pos rfl, div_self hc', one_mul, h0 _ (hkf j) b b', Matrix.one_apply]
      simp
    · rw [if_neg hj, zero_div, zero_mul, Matrix.one_apply, if_neg (by simp [hj])]
  have hΦ' : Φ * Matrix.conjTranspose Φ = 1 := mul_eq_one_comm.1 hΦ
  have hrows : RowsOrthonormal (fun x y => φ x y) := by
    intro x y
    have := congrFun (congrFun hΦ' x) y
    rw [Matrix.mul_apply, Matrix.one_apply] at this
    simpa [Matrix.conjTranspose_apply] using this
  refine ⟨kf, h1, hK, hrows, ?_⟩
  intro x y
  have := congrFun (congrFun hΦ x) y
  rw [Matrix.mul_apply, Matrix.one_apply] at this
  simpa [Matrix.conjTranspose_apply] using this

/-- **C178**: each state of the supercell, distorted or not, has weights that add up to one over all wave vectors that are folded onto its own, ... -/
theorem C178_complete (N1 N2 N3 : V3) (hD : detSpec N1 N2 N3 ≠ 0) (s : Supercell) (hs : Verif.Lattice.supercell N1 N2 N3 = some s) (K : Fin 3 → ℝ)
    (ks : List (Fin 3 → ℝ)) (hks : Unfolds (superK N1 N2 N3) K ks) (U0 : (Fin 3 → ℝ) → Fin d → Fin d → ℂ) (h0 : ∀ k ∈ ks, ColumnsOrthonormal (U0 k))
    (H : Fin s.cells.length × Fin d → Fin s.cells.length × Fin d → ℂ) (E : β → ℝ) (U : Fin s.cells.length × Fin d → β → ℂ) (hE : Eigen H E U) (n : β) :
    (ks.map fun k => w s k (U0 k) U n).sum = 1 := by
  obtain ⟨kf, h1, -, hrows, -⟩ := bloch_complete N1 N2 N3 hD s hs K ks hks U0 h0
  rw [h1, List.map_ofFn, List.sum_ofFn]
  simp only [Function.comp_apply, w_eq s hE]
  have h3 := parseval _ hrows fun x => U x n
  have h4 : ∑ x, ‖U x n‖ ^ 2 = 1 := by
    apply Complex.ofReal_injective
    have h2 := hE.columns n n
    rw [if_pos rfl] at h2
    rw [Complex.ofReal_sum, Complex.ofReal_one, ← h2]
    refine Finset.sum_congr rfl fun x _ => ?_
    rw [← Complex.normSq_eq_norm_sq, ← Complex.mul_conj, mul_comm]
    rfl
  rw [h4, Fintype.sum_prod_type] at h3
  refine Eq.trans ?_ h3
  refine Finset.sum_congr rfl fun j _ => Finset.sum_congr rfl fun b _ => ?_
  rw [← norm_star, star_sum]
  refine congrArg (fun z : ℂ => ‖z‖ ^ 2) (Finset.sum_congr rfl fun x _ => ?_)
  rw [star_mul', star_star, mul_comm]

/-- **C178**: ... and such Bloch states are a diagonalization of the perfect supercell: its bands are those of the unit cell at the folded wave vectors. -/
theorem C178_diagonalization (N1 N2 N3 : V3) (hD : detSpec N1 N2 N3 ≠ 0) (s : Supercell) (hs : Verif.Lattice.supercell N1 N2 N3 = some s)
    (l : Blocks (Fin d) ℂ) (hnd : (l.map Prod.fst).Nodup) (m : Blocks (Nat × Fin d) ℂ) (hm : Verif.TB.supercell s l = some m) (K : Fin 3 → ℝ)
    (ks : List (Fin 3 → ℝ)) (hks : Unfolds (superK N1 N2 N3) K ks) (e0 : (Fin 3 → ℝ) → Fin d → ℝ) (U0 : (Fin 3 → ℝ) → Fin d → Fin d → ℂ)
    (he : ∀ k ∈ ks, Eigen (bloch l k) (e0 k) (U0 k)) :
    ∃ (E : Fin s.cells.length × Fin d → ℝ) (U : Fin s.cells.length × Fin d → Fin s.cells.length × Fin d → ℂ),
      Eigen (cellMatrix (bloch m K)) E U ∧ ∀ f : ℝ → ℝ, ∑ n, f (E n) = (ks.map fun k => ∑ b, f (e0 k b)).sum := by
  obtain ⟨kf, h1, hK, hrows, hcols⟩ := bloch_complete N1 N2 N3 hD s hs K ks hks U0 fun k hk => (he k hk).columns
  refine ⟨fun y => e0 (kf y.1) y.2, _, ⟨hrows, hcols, fun x y => ?_⟩, fun f => ?_⟩
  · have h2 := bloch_eigen s _ _ (kf y.1) (folded_el N1 N2 N3 hD s hs l hnd m hm (kf y.1)) (e0 (kf y.1)) (U0 (kf y.1))
      (he _ (by rw [h1]; simp)) y.2 x
    rw [show bloch m (superK N1 N2 N3 (kf y.1)) = bloch m K from funext fun a => funext fun b => Verif.Diag.Derivatives.bloch_congr (hK y.1) m a b] at h2
    exact h2
  · rw [h1, List.map_ofFn, List.sum_ofFn, Fintype.sum_prod_type]
    rfl

/-- **C178**: the same for phonons (squared frequencies). -/
theorem C178_diagonalization_ph (N1 N2 N3 : V3) (hD : detSpec N1 N2 N3 ≠ 0) (s : Supercell) (hs : Verif.Lattice.supercell N1 N2 N3 = some s)
    (l : Blocks (Fin d) ℝ) (hnd : (l.map Prod.fst).Nodup) (m : Blocks (Nat × Fin d) ℝ) (hm : Verif.TB.supercell s l = some m) (Q : Fin 3 → ℝ)
    (qs : List (Fin 3 → ℝ)) (hqs : Unfolds (superK N1 N2 N3) Q qs) (w0 : (Fin 3 → ℝ) → Fin d → ℝ) (u0 : (Fin 3 → ℝ) → Fin d → Fin d → ℂ)
    (he : ∀ q ∈ qs, Eigen (dynMat l q) (w0 q) (u0 q)) :
    ∃ (w2 : Fin s.cells.length × Fin d → ℝ) (u : Fin s.cells.length × Fin d → Fin s.cells.length × Fin d → ℂ),
      Eigen (cellMatrix (dynMat m Q)) w2 u ∧ ∀ f : ℝ → ℝ, ∑ n, f (w2 n) = (qs.map fun q => ∑ b, f (w0 q b)).sum := by
  obtain ⟨kf, h1, hK, hrows, hcols⟩ := bloch_complete N1 N2 N3 hD s hs Q qs hqs u0 fun k hk => (he k hk).columns
  refine ⟨fun y => w0 (kf y.1) y.2, _, ⟨hrows, hcols, fun x y => ?_⟩, fun f => ?_⟩
  · have h2 := bloch_eigen s (cellMatrix (dynMat m (superK N1 N2 N3 (kf y.1)))) (dynMat l (kf y.1)) (kf y.1) (fun i a b => by
        have h1 := Verif.TB.C42_folding_ph N1 N2 N3 hD s hs l hnd m hm (kf y.1) i i.2 a b
        rw [Finset.sum_range] at h1
        exact h1) (w0 (kf y.1)) (u0 (kf y.1)) (he _ (by rw [h1]; simp)) y.2 x
    rw [show dynMat m (superK N1 N2 N3 (kf y.1)) = dynMat m Q from funext fun a => funext fun b => Verif.Diag.Derivatives.bloch_congr (hK y.1) _ a b] at h2
    exact h2
  · rw [h1, List.map_ofFn, List.sum_ofFn, Fintype.sum_prod_type]
    rfl

/-! ## Subsets of bands -/

/-- Weights depend on the ratio of the numbers of bands. -/
theorem weight_scale {c b0 d0 : Nat} {γ : Type} (phase : Fin c → ℂ) (U0 : Fin d0 → Fin b0 → ℂ) (U : Fin c × Fin d0 → γ → ℂ) (bands bands' : Nat)
    (h : bands ≠ 0) (h' : bands' ≠ 0) (n : γ) : weight bands phase U0 U n = bands' / bands * weight bands' phase U0 U n := by
  have key : ∀ B : Nat, B ≠ 0 → weight B phase U0 U n = (b0 : ℝ) / B * ∑ m, ‖∑ r, phase r * ∑ a, star (U0 a m) * U (r, a) n‖ ^ 2 := by
    intro B hB
    unfold weight
    rw [Finset.mul_sum]
    refine Finset.sum_congr rfl fun m _ => ?_
    have hb0 : (0 : ℝ) < b0 := by exact_mod_cast (lt_of_le_of_lt (Nat.zero_le _) m.2)
    have hB' : (0 : ℝ) < B := by exact_mod_cast Nat.pos_of_ne_zero hB
    have h1 : ∑ r, phase r * ∑ a, star (U0 a m / (Real.sqrt ((B : ℝ) / b0) : ℂ)) * U (r, a) n =
        (∑ r, phase r * ∑ a, star (U0 a m) * U (r, a) n) / (Real.sqrt ((B : ℝ) / b0) : ℂ) := by
      rw [Finset.sum_div]
      refine Finset.sum_congr rfl fun r _ => ?_
      rw [mul_div_assoc, Finset.sum_div]
      congr 1
      refine Finset.sum_congr rfl fun a _ => ?_
      rw [star_div₀, show star ((Real.sqrt ((B : ℝ) / b0) : ℝ) : ℂ) = (Real.sqrt ((B : ℝ) / b0) : ℂ) from Complex.conj_ofReal _]
      ring
    rw [h1, norm_div, div_pow, Complex.norm_real, Real.norm_eq_abs, sq_abs, Real.sq_sqrt (by positivity)]
    field_simp
  rw [key bands h, key bands' h']
  have : (bands : ℝ) ≠ 0 := by exact_mod_cast h
  have : (bands' : ℝ) ≠ 0 := by exact_mod_cast h'
  field_simp

/-- **C178**, wrong in the code: if only `b0` out of `d` bands of the unit cell are given, weights add up to `b0² / d` rather than to the number `b0` of bands
of the unit cell that are projected on. -/
theorem C178_subset_violated (b0 : Nat) (hb : 0 < b0) (hd : b0 < d) (s : Supercell) (hc : 0 < s.cells.length)
    (H : Fin s.cells.length × Fin d → Fin s.cells.length × Fin d → ℂ) (E : β → ℝ) (U : Fin s.cells.length × Fin d → β → ℂ) (hE : Eigen H E U)
    (k : Fin 3 → ℝ) (U0 : Fin d → Fin b0 → ℂ) (h0 : ColumnsOrthonormal U0) :
    ∑ n, unfoldingWeight (Fintype.card β) (-1) k (positions s) U0 U n = (b0 : ℝ) ^ 2 / d ∧ (b0 : ℝ) ^ 2 / d < b0 := by
  have hb' : (0 : ℝ) < b0 := by exact_mod_cast hb
  have hd' : (b0 : ℝ) < d := by exact_mod_cast hd
  have hc' : (0 : ℝ) < s.cells.length := by exact_mod_cast hc
  have hdp : (0 : ℝ) < d := hb'.trans hd'
  constructor
  · have hcard : Fintype.card β = s.cells.length * d := by rw [card_of_eigen hE]; simp
    unfold unfoldingWeight
    have h1 : ∀ n, weight (Fintype.card β) (cellPhase (-1) k (positions s)) U0 U n =
        (b0 : ℝ) / d * unfoldingWeight (s.cells.length * b0) (-1) k (positions s) U0 U n := by
      intro n
      rw [weight_scale _ _ _ _ (s.cells.length * b0) (by rw [hcard]; exact (Nat.mul_pos hc (hb.trans hd)).ne') (Nat.mul_pos hc hb).ne', hcard]
      unfold unfoldingWeight
      congr 1
      push_cast
      field_simp
    rw [Finset.sum_congr rfl fun n _ => h1 n, ← Finset.mul_sum, C68_sum _ rfl hc _ _ _ _ h0 _ hE.rows]
    field_simp
  · rw [div_lt_iff₀ hdp]
    nlinarith

/-! ## Example: chain with nearest-neighbor hopping -/

def chain : Blocks (Fin 1) ℂ := [((1, 0, 0), fun _ _ => 1), ((-1, 0, 0), fun _ _ => 1)]

theorem chain_eigen (k : Fin 3 → ℝ) : Eigen (bloch chain k) (fun _ : Fin 1 => 2 * Real.cos (k 0)) (fun _ _ => 1) := by
  refine ⟨fun x y => by simp [Subsingleton.elim x y], fun x y => by simp [Subsingleton.elim x y], fun x n => ?_⟩
  simp only [bloch, chain, phase, List.map_cons, List.map_nil, List.sum_cons, List.sum_nil, Finset.univ_unique, Finset.sum_singleton]
  push_cast
  rw [Complex.two_cos]
  simp
  try ring_nf

/-- The doubled (zigzag) supercell of the chain and its bands. -/
theorem chain_supercell (k : Fin 3 → ℝ) : ∃ (s : Supercell) (m : Blocks (Nat × Fin 1) ℂ) (E : Fin s.cells.length × Fin 1 → ℝ)
    (U : Fin s.cells.length × Fin 1 → Fin s.cells.length × Fin 1 → ℂ), Verif.Lattice.supercell (2, 1, 0) (0, 1, 0) (0, 0, 1) = some s ∧
    s.cells.length = 2 ∧ Verif.TB.supercell s chain = some m ∧ Eigen (cellMatrix (bloch m (superK (2, 1, 0) (0, 1, 0) (0, 0, 1) k))) E U := by
  obtain ⟨m, hm, -⟩ := Verif.TB.C42_blocks (2, 1, 0) (0, 1, 0) (0, 0, 1) (by decide) _ rfl chain (by decide)
  obtain ⟨ks, hks, hlen⟩ := Verif.TB.C42_unfolds (2, 1, 0) (0, 1, 0) (0, 0, 1) (by decide) (superK (2, 1, 0) (0, 1, 0) (0, 0, 1) k)
  obtain ⟨E, U, hE, -⟩ := C178_diagonalization (2, 1, 0) (0, 1, 0) (0, 0, 1) (by decide) _ rfl chain (by decide) m hm _ ks hks
    (fun k _ => 2 * Real.cos (k 0)) (fun _ _ _ => 1) fun k _ => chain_eigen k
  exact ⟨_, m, E, U, rfl, rfl, hm, hE⟩

example (k : Fin 3 → ℝ) (f : ℝ → ℝ) : ∃ (s : Supercell) (m : Blocks (Nat × Fin 1) ℂ) (E : Fin s.cells.length × Fin 1 → ℝ)
    (U : Fin s.cells.length × Fin 1 → Fin s.cells.length × Fin 1 → ℂ), s.cells.length = 2 ∧ Verif.TB.supercell s chain = some m ∧
    ∑ n, w s k (fun _ _ => 1) U n * f (E n) = f (2 * Real.cos (k 0)) := by
  obtain ⟨s, m, E, U, hs, hlen, hm, hE⟩ := chain_supercell k
  refine ⟨s, m, E, U, hlen, hm, ?_⟩
  rw [C178_spectrum _ _ _ (by decide) s hs chain (by decide) m hm k _ _ (chain_eigen k) E U hE f]
  simp

example (k : Fin 3 → ℝ) : ∃ (s : Supercell) (m : Blocks (Nat × Fin 1) ℂ) (E : Fin s.cells.length × Fin 1 → ℝ)
    (U : Fin s.cells.length × Fin 1 → Fin s.cells.length × Fin 1 → ℂ), s.cells.length = 2 ∧ Verif.TB.supercell s chain = some m ∧
    ∑ n with E n = 2 * Real.cos (k 0), w s k (fun _ _ => 1) U n = 1 ∧ ∀ n, w s k (fun _ _ => 1) U n ≠ 0 → E n = 2 * Real.cos (k 0) := by
  obtain ⟨s, m, E, U, hs, hlen, hm, hE⟩ := chain_supercell k
  refine ⟨s, m, E, U, hlen, hm, ?_, fun n hn => ?_⟩
  · rw [C178_multiplicity _ _ _ (by decide) s hs chain (by decide) m hm k _ _ (chain_eigen k) E U hE]
    simp
  · obtain ⟨-, hb⟩ := C178_energies _ _ _ (by decide) s hs chain (by decide) m hm k _ _ (chain_eigen k) E U hE n hn
    exact hb.symm

example (K : Fin 3 → ℝ) : ∃ (s : Supercell) (m : Blocks (Nat × Fin 1) ℂ) (ks : List (Fin 3 → ℝ)) (E : Fin s.cells.length × Fin 1 → ℝ)
    (U : Fin s.cells.length × Fin 1 → Fin s.cells.length × Fin 1 → ℂ), ks.length = 2 ∧ Verif.TB.supercell s chain = some m ∧
    Eigen (cellMatrix (bloch m K)) E U ∧ (∀ f : ℝ → ℝ, ∑ n, f (E n) = (ks.map fun k => f (2 * Real.cos (k 0))).sum) ∧
    ∀ n, (ks.map fun k => w s k (fun _ _ => 1) U n).sum = 1 := by
  obtain ⟨m, hm, -⟩ := Verif.TB.C42_blocks (2, 1, 0) (0, 1, 0) (0, 0, 1) (by decide) _ rfl chain (by decide)
  obtain ⟨ks, hks, hlen⟩ := Verif.TB.C42_unfolds (2, 1, 0) (0, 1, 0) (0, 0, 1) (by decide) K
  obtain ⟨E, U, hE, hf⟩ := C178_diagonalization (2, 1, 0) (0, 1, 0) (0, 0, 1) (by decide) _ rfl chain (by decide) m hm K ks hks
    (fun k _ => 2 * Real.cos (k 0)) (fun _ _ _ => 1) fun k _ => chain_eigen k
  exact ⟨_, m, ks, E, U, hlen, hm, hE, fun f => by simpa using hf f, C178_complete (2, 1, 0) (0, 1, 0) (0, 0, 1) (by decide) _ rfl K ks hks
    (fun _ _ _ => 1) (fun k _ => (chain_eigen k).columns) _ E U hE⟩

/-- Phonons of a chain with nearest-neighbor springs. -/
def springs : Blocks (Fin 1) ℝ := [((0, 0, 0), fun _ _ => 2), ((1, 0, 0), fun _ _ => -1), ((-1, 0, 0), fun _ _ => -1)]

theorem springs_eigen (q : Fin 3 → ℝ) : Eigen (dynMat springs q) (fun _ : Fin 1 => 2 - 2 * Real.cos (q 0)) (fun _ _ => 1) := by
  refine ⟨fun x y => by simp [Subsingleton.elim x y], fun x y => by simp [Subsingleton.elim x y], fun x n => ?_⟩
  simp only [dynMat, bloch, springs, phase, List.map_cons, List.map_nil, List.sum_cons, List.sum_nil, Finset.univ_unique, Finset.sum_singleton]
  push_cast
  rw [Complex.two_cos]
  simp
  try ring_nf

example (q : Fin 3 → ℝ) (f : ℝ → ℝ) : ∃ (s : Supercell) (m : Blocks (Nat × Fin 1) ℝ) (E : Fin s.cells.length × Fin 1 → ℝ)
    (U : Fin s.cells.length × Fin 1 → Fin s.cells.length × Fin 1 → ℂ), Verif.TB.supercell s springs = some m ∧
    ∑ n, w s q (fun _ _ => 1) U n * f (E n) = f (2 - 2 * Real.cos (q 0)) := by
  obtain ⟨m, hm, -⟩ := Verif.TB.C42_blocks (2, 1, 0) (0, 1, 0) (0, 0, 1) (by decide) _ rfl springs (by decide)
  obtain ⟨ks, hks, hlen⟩ := Verif.TB.C42_unfolds (2, 1, 0) (0, 1, 0) (0, 0, 1) (by decide) (superK (2, 1, 0) (0, 1, 0) (0, 0, 1) q)
  obtain ⟨E, U, hE, -⟩ := C178_diagonalization_ph (2, 1, 0) (0, 1, 0) (0, 0, 1) (by decide) _ rfl springs (by decide) m hm _ ks hks
    (fun q _ => 2 - 2 * Real.cos (q 0)) (fun _ _ _ => 1) fun q _ => springs_eigen q
  refine ⟨_, m, E, U, hm, ?_⟩
  rw [C178_spectrum_ph (2, 1, 0) (0, 1, 0) (0, 0, 1) (by decide) _ rfl springs (by decide) m hm q _ _ (springs_eigen q) E U hE f]
  simp

/-- A rigid shift of all energies. -/
example (k : Fin 3 → ℝ) (v Δ : ℝ) (hΔ : 0 < Δ) : ∃ (s : Supercell) (E : Fin s.cells.length × Fin 1 → ℝ)
    (U : Fin s.cells.length × Fin 1 → Fin s.cells.length × Fin 1 → ℂ),
    ∑ n with (∀ _ : Fin 1, Δ ≤ |E n + v - 2 * Real.cos (k 0)|), w s k (fun _ _ => 1) U n ≤ (1 : ℕ) * (v / Δ) ^ 2 := by
  obtain ⟨s, m, E, U, hs, hlen, hm, hE⟩ := chain_supercell k
  refine ⟨s, E, U, C178_distorted _ _ _ (by decide) s hs chain (by decide) m hm k _ _ (chain_eigen k)
    (fun x y => cellMatrix (n := s.cells.length) (bloch m (superK (2, 1, 0) (0, 1, 0) (0, 0, 1) k)) x y + if x = y then (v : ℂ) else 0) (fun n => E n + v) U
    ⟨hE.rows, hE.columns, fun x n => ?_⟩ v Δ hΔ fun φ hφ => ?_⟩
  · simp only [add_mul, Finset.sum_add_distrib, hE.eigen x n]
    simp
    ring
  · simp only [add_sub_cancel_left, ite_mul, zero_mul, Finset.sum_ite_eq, Finset.mem_univ, if_true, norm_mul, mul_pow]
    rw [← Finset.mul_sum, hφ, mul_one, Complex.norm_real, Real.norm_eq_abs, sq_abs]

/-- One out of two bands. -/
example (k : Fin 3 → ℝ) (s : Supercell) (hc : 0 < s.cells.length) :
    ∑ n : Fin s.cells.length × Fin 2, unfoldingWeight (Fintype.card (Fin s.cells.length × Fin 2)) (-1) k (positions s)
      (fun (a : Fin 2) (_ : Fin 1) => if a = 0 then 1 else 0) (fun x n => if x = n then 1 else 0) n = 1 / 2 := by
  have h := C178_subset_violated (d := 2) 1 (by norm_num) (by norm_num) s hc (fun x y => if x = y then 1 else 0) (fun _ => 1) (fun x n => if x = n then 1 else 0)
    ⟨fun x y => by simp, fun x y => by simp [eq_comm], fun x y => by simp⟩ k (fun a _ => if a = 0 then 1 else 0)
    (fun x y => by simp [Subsingleton.elim x y])
  rw [h.1]
  norm_num

end Verif.Bands.Unfold
