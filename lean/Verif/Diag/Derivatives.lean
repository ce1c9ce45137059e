import Verif.Diag.Potential
import Mathlib.LinearAlgebra.Matrix.ConjTranspose
import Mathlib.Topology.Instances.Matrix
import Mathlib.Topology.Ultrafilter
import Mathlib.Analysis.Matrix.Spectrum
import Mathlib.Tactic.NoncommRing
import Mathlib.Tactic.FinCases

/-!
# Diagrams of lowest orders as derivatives of the grand potential (C152), choice of eigenvectors (C153)

Eigenvalues may be sorted in any way, and no regularity of eigenvectors as functions of a parameter or wave vector is assumed.
-/

namespace Verif.Diag.Derivatives

open Matrix Verif.Occ Filter Topology

variable {nb : Nat}

/-! ### Specification -/

/-- Result of a diagonalization. -/
structure Diagonalizes (A : Matrix (Fin nb) (Fin nb) ℂ) (e : Fin nb → ℝ) (U : Matrix (Fin nb) (Fin nb) ℂ) : Prop where
  eig : A * U = U * diagonal fun n => (e n : ℂ)
  unitary : Uᴴ * U = 1

/-- Operator between two bases, `elphmod/elph.py` (`g` with eigenvectors). -/
def mix (U W T : Matrix (Fin nb) (Fin nb) ℂ) (m n : Fin nb) : ℂ := (Uᴴ * W * T) m n

/-- Coupling to two displacements `false` and `true`. -/
def pair {n1 n2 n3 : Nat} (a b : Mesh n1 n2 n3 → Fin nb → Fin nb → ℂ) : Cpl n1 n2 n3 nb Bool := fun x k m n =>
  if x then b k m n else a k m n

theorem pair_false {n1 n2 n3 : Nat} (a b : Mesh n1 n2 n3 → Fin nb → Fin nb → ℂ) (k : Mesh n1 n2 n3) (m n : Fin nb) :
    pair a b false k m n = a k m n := rfl

theorem pair_true {n1 n2 n3 : Nat} (a b : Mesh n1 n2 n3 → Fin nb → Fin nb → ℂ) (k : Mesh n1 n2 n3) (m n : Fin nb) :
    pair a b true k m n = b k m n := rfl

/-! ### Sums over eigenstates -/

theorem mul_unitary {A U : Matrix (Fin nb) (Fin nb) ℂ} {e : Fin nb → ℝ} (h : Diagonalizes A e U) : U * Uᴴ = 1 :=
  mul_eq_one_comm.1 h.unitary

/-- Overlap between eigenstates of different operators. -/
theorem overlap {A B U T : Matrix (Fin nb) (Fin nb) ℂ} {a b : Fin nb → ℝ} (hA : Diagonalizes A a U) (hB : Diagonalizes B b T)
    (m l : Fin nb) : mix U 1 T m l * ((b l : ℂ) - a m) = mix U (B - A) T m l := by
  have h5 : Uᴴ * A = (diagonal fun n => (a n : ℂ)) * Uᴴ := by
    calc Uᴴ * A = Uᴴ * A * (U * Uᴴ) := by rw [mul_unitary hA, Matrix.mul_one]
      _ = Uᴴ * (A * U) * Uᴴ := by noncomm_ring
      _ = (Uᴴ * U) * (diagonal fun n => (a n : ℂ)) * Uᴴ := by rw [hA.eig]; noncomm_ring
      _ = _ := by rw [hA.unitary, Matrix.one_mul]
  have h6 : Uᴴ * (B - A) * T = Uᴴ * 1 * T * (diagonal fun n => (b n : ℂ)) - (diagonal fun n => (a n : ℂ)) * (Uᴴ * 1 * T) := by
    calc Uᴴ * (B - A) * T = Uᴴ * (B * T) - Uᴴ * A * T := by noncomm_ring
      _ = _ := by rw [hB.eig, h5]; noncomm_ring
  unfold mix
  rw [h6, Matrix.sub_apply, Matrix.mul_diagonal, Matrix.diagonal_mul]
  ring

/-- Insertion of a complete set of states. -/
theorem exchange {A B U T : Matrix (Fin nb) (Fin nb) ℂ} {a b : Fin nb → ℝ} (hA : Diagonalizes A a U) (hB : Diagonalizes B b T)
    (Φ : ℝ → Matrix (Fin nb) (Fin nb) ℂ) : ∑ l, mix T (Φ (b l)) T l l - ∑ m, mix U (Φ (a m)) U m m =
      ∑ m, ∑ l, mix U 1 T m l * mix T (Φ (b l) - Φ (a m)) U l m := by
  have h1 : ∀ l, ∑ m, mix U 1 T m l * mix T (Φ (b l)) U l m = mix T (Φ (b l)) T l l := by
    intro l
    have : ∑ m, mix U 1 T m l * mix T (Φ (b l)) U l m = (Tᴴ * Φ (b l) * U * (Uᴴ * 1 * T) : Matrix (Fin nb) (Fin nb) ℂ) l l := by
      rw [Matrix.mul_apply]
      exact Finset.sum_congr rfl fun m _ => mul_comm _ _
    rw [this, show Tᴴ * Φ (b l) * U * (Uᴴ * 1 * T) = Tᴴ * Φ (b l) * (U * Uᴴ) * T by noncomm_ring, mul_unitary hA, Matrix.mul_one]
    rfl
  have h2 : ∀ m, ∑ l, mix U 1 T m l * mix T (Φ (a m)) U l m = mix U (Φ (a m)) U m m := by
    intro m
    have : ∑ l, mix U 1 T m l * mix T (Φ (a m)) U l m = (Uᴴ * 1 * T * (Tᴴ * Φ (a m) * U) : Matrix (Fin nb) (Fin nb) ℂ) m m := by
      rw [Matrix.mul_apply]
      rfl
    rw [this, show Uᴴ * 1 * T * (Tᴴ * Φ (a m) * U) = Uᴴ * (T * Tᴴ) * Φ (a m) * U by noncomm_ring, mul_unitary hB, Matrix.mul_one]
    rfl
  have h3 : ∀ m l, mix T (Φ (b l) - Φ (a m)) U l m = mix T (Φ (b l)) U l m - mix T (Φ (a m)) U l m := by
    intro m l
    unfold mix
    rw [Matrix.mul_sub, Matrix.sub_mul, Matrix.sub_apply]
  simp only [h3, mul_sub, Finset.sum_sub_distrib, h2]
  rw [Finset.sum_comm, Finset.sum_congr rfl fun l _ => h1 l]

/-- Sums over eigenstates do not depend on their choice. -/
theorem gauge {A U T : Matrix (Fin nb) (Fin nb) ℂ} {a b : Fin nb → ℝ} (hA : Diagonalizes A a U) (hB : Diagonalizes A b T)
    (Φ : ℝ → Matrix (Fin nb) (Fin nb) ℂ) : ∑ l, mix T (Φ (b l)) T l l = ∑ m, mix U (Φ (a m)) U m m := by
  rw [← sub_eq_zero, exchange hA hB]
  refine Finset.sum_eq_zero fun m _ => Finset.sum_eq_zero fun l _ => ?_
  by_cases h : b l = a m
  · rw [h, sub_self]
    simp [mix]
  · have h1 := overlap hA hB m l
    rw [sub_self] at h1
    have h2 : ((b l : ℂ) - a m) ≠ 0 := by
      rw [← Complex.ofReal_sub]
      exact Complex.ofReal_ne_zero.2 (sub_ne_zero.2 h)
    have h3 : mix U 0 T m l = 0 := by simp [mix]
    rw [h3, mul_eq_zero, or_iff_left h2] at h1
    rw [h1, zero_mul]

/-- Sum over one set of states. -/
def sum1 (G : ℝ → ℂ) (a : Fin nb → ℝ) (U W : Matrix (Fin nb) (Fin nb) ℂ) : ℂ := ∑ m, G (a m) * mix U W U m m

/-- Sum over two sets of states. -/
def sum2 (G : ℝ → ℝ → ℂ) (a b : Fin nb → ℝ) (U T X Z : Matrix (Fin nb) (Fin nb) ℂ) : ℂ :=
  ∑ m, ∑ n, G (a m) (b n) * (mix U X T m n * mix T Z U n m)

/-- Sum over three sets of states. -/
def sum3 (G : ℝ → ℝ → ℝ → ℂ) (a b c : Fin nb → ℝ) (U T S X Y Z : Matrix (Fin nb) (Fin nb) ℂ) : ℂ :=
  ∑ m, ∑ n, ∑ l, G (a m) (b n) (c l) * (mix U X T m n * mix T Y S n l * mix S Z U l m)

theorem sum2_flip (G : ℝ → ℝ → ℂ) (a b : Fin nb → ℝ) (U T X Z : Matrix (Fin nb) (Fin nb) ℂ) :
    sum2 G a b U T X Z = sum2 (fun x y => G y x) b a T U Z X := by
  unfold sum2
  rw [Finset.sum_comm]
  refine Finset.sum_congr rfl fun n _ => Finset.sum_congr rfl fun m _ => ?_
  ring

theorem sum3_cyc (G : ℝ → ℝ → ℝ → ℂ) (a b c : Fin nb → ℝ) (U T S X Y Z : Matrix (Fin nb) (Fin nb) ℂ) :
    sum3 G a b c U T S X Y Z = sum3 (fun x y z => G z x y) b c a T S U Y Z X := by
  unfold sum3
  rw [Finset.sum_comm]
  refine Finset.sum_congr rfl fun n _ => ?_
  rw [Finset.sum_comm]
  refine Finset.sum_congr rfl fun l _ => Finset.sum_congr rfl fun m _ => ?_
  ring

/-- Operator in the first place of `sum2`. -/
def op2 (G : ℝ → ℝ → ℂ) (b : Fin nb → ℝ) (T X Z : Matrix (Fin nb) (Fin nb) ℂ) (x : ℝ) : Matrix (Fin nb) (Fin nb) ℂ :=
  X * T * (diagonal fun n => (G x (b n))) * (Tᴴ * Z)

theorem mix_op2 (G : ℝ → ℝ → ℂ) (b : Fin nb → ℝ) (T X Z : Matrix (Fin nb) (Fin nb) ℂ) (x : ℝ) (U S : Matrix (Fin nb) (Fin nb) ℂ)
    (l m : Fin nb) : mix S (op2 G b T X Z x) U l m = ∑ n, (G x (b n)) * (mix S X T l n * mix T Z U n m) := by
  unfold mix op2
  rw [show Sᴴ * (X * T * (diagonal fun n => (G x (b n))) * (Tᴴ * Z)) * U =
    Sᴴ * X * T * (diagonal fun n => (G x (b n))) * (Tᴴ * Z * U) by noncomm_ring, Matrix.mul_apply]
  refine Finset.sum_congr rfl fun n _ => ?_
  rw [Matrix.mul_diagonal]
  ring

/-- Operator in the first place of `sum3`. -/
def op3 (G : ℝ → ℝ → ℝ → ℂ) (b c : Fin nb → ℝ) (T S X Y Z : Matrix (Fin nb) (Fin nb) ℂ) (x : ℝ) : Matrix (Fin nb) (Fin nb) ℂ :=
  X * T * (Matrix.of fun n l => (G x (b n) (c l)) * mix T Y S n l) * (Sᴴ * Z)

theorem mix_op3 (G : ℝ → ℝ → ℝ → ℂ) (b c : Fin nb → ℝ) (T S X Y Z : Matrix (Fin nb) (Fin nb) ℂ) (x : ℝ)
    (U R : Matrix (Fin nb) (Fin nb) ℂ) (i m : Fin nb) : mix R (op3 G b c T S X Y Z x) U i m =
      ∑ n, ∑ l, (G x (b n) (c l)) * (mix R X T i n * mix T Y S n l * mix S Z U l m) := by
  unfold op3
  rw [mix, show Rᴴ * (X * T * (Matrix.of fun n l => (G x (b n) (c l)) * mix T Y S n l) * (Sᴴ * Z)) * U =
    Rᴴ * X * T * (Matrix.of fun n l => (G x (b n) (c l)) * mix T Y S n l) * (Sᴴ * Z * U) by noncomm_ring, Matrix.mul_apply,
    Finset.sum_comm]
  refine Finset.sum_congr rfl fun l _ => ?_
  rw [Matrix.mul_apply, Finset.sum_mul]
  refine Finset.sum_congr rfl fun n _ => ?_
  rw [Matrix.of_apply]
  unfold mix
  ring

theorem sum2_op (G : ℝ → ℝ → ℂ) (a b : Fin nb → ℝ) (U T X Z : Matrix (Fin nb) (Fin nb) ℂ) :
    sum2 G a b U T X Z = ∑ m, mix U (op2 G b T X Z (a m)) U m m := by
  simp only [mix_op2]
  rfl

theorem sum3_op (G : ℝ → ℝ → ℝ → ℂ) (a b c : Fin nb → ℝ) (U T S X Y Z : Matrix (Fin nb) (Fin nb) ℂ) :
    sum3 G a b c U T S X Y Z = ∑ m, mix U (op3 G b c T S X Y Z (a m)) U m m := by
  simp only [mix_op3]
  rfl

theorem sum1_op (G : ℝ → ℂ) (a : Fin nb → ℝ) (U W : Matrix (Fin nb) (Fin nb) ℂ) :
    sum1 G a U W = ∑ m, mix U (G (a m) • W) U m m := by
  unfold sum1
  refine Finset.sum_congr rfl fun m _ => ?_
  unfold mix
  rw [Matrix.mul_smul, Matrix.smul_mul, Matrix.smul_apply, smul_eq_mul]

theorem sum1_gauge (G : ℝ → ℂ) {A U U' : Matrix (Fin nb) (Fin nb) ℂ} {a a' : Fin nb → ℝ} (h : Diagonalizes A a U)
    (h' : Diagonalizes A a' U') (W : Matrix (Fin nb) (Fin nb) ℂ) : sum1 G a' U' W = sum1 G a U W := by
  rw [sum1_op, sum1_op]
  exact gauge h h' fun x => (G x) • W

theorem sum2_gauge (G : ℝ → ℝ → ℂ) {A B U T U' T' : Matrix (Fin nb) (Fin nb) ℂ} {a b a' b' : Fin nb → ℝ}
    (hA : Diagonalizes A a U) (hA' : Diagonalizes A a' U') (hB : Diagonalizes B b T) (hB' : Diagonalizes B b' T')
    (X Z : Matrix (Fin nb) (Fin nb) ℂ) : sum2 G a' b' U' T' X Z = sum2 G a b U T X Z := by
  rw [sum2_op, gauge hA hA', ← sum2_op, sum2_flip, sum2_op, gauge hB hB', ← sum2_op, ← sum2_flip]

theorem sum3_gauge (G : ℝ → ℝ → ℝ → ℂ) {A B C U T S U' T' S' : Matrix (Fin nb) (Fin nb) ℂ} {a b c a' b' c' : Fin nb → ℝ}
    (hA : Diagonalizes A a U) (hA' : Diagonalizes A a' U') (hB : Diagonalizes B b T) (hB' : Diagonalizes B b' T')
    (hC : Diagonalizes C c S) (hC' : Diagonalizes C c' S') (X Y Z : Matrix (Fin nb) (Fin nb) ℂ) :
    sum3 G a' b' c' U' T' S' X Y Z = sum3 G a b c U T S X Y Z := by
  rw [sum3_op, gauge hA hA', ← sum3_op, sum3_cyc, sum3_op, gauge hB hB', ← sum3_op, sum3_cyc, sum3_op, gauge hC hC', ← sum3_op,
    sum3_cyc]

/-! ### Continuity -/

/-- Eigenvalues are bounded by the matrix elements. -/
theorem eig_bound {A U : Matrix (Fin nb) (Fin nb) ℂ} {e : Fin nb → ℝ} (h : Diagonalizes A e U) :
    (∀ i j, ‖U i j‖ ≤ 1) ∧ ∀ n, |e n| ≤ ∑ i, ∑ j, ‖A i j‖ := by
  have hU : ∀ i j, ‖U i j‖ ≤ 1 := by
    intro i j
    have h1 := congrFun (congrFun h.unitary j) j
    rw [Matrix.mul_apply, Matrix.one_apply_eq] at h1
    have h2 : ∑ i, ‖U i j‖ ^ 2 = 1 := by
      have h3 : ∀ i, Uᴴ j i * U i j = ((‖U i j‖ ^ 2 : ℝ) : ℂ) := by
        intro i
        rw [conjTranspose_apply, mul_comm]
        push_cast
        exact Complex.mul_conj' _
      simp only [h3] at h1
      rw [← Complex.ofReal_sum] at h1
      exact_mod_cast h1
    have h4 := Finset.single_le_sum (f := fun i => ‖U i j‖ ^ 2) (fun i _ => by positivity) (Finset.mem_univ i)
    simp only [h2] at h4
    exact (sq_le_one_iff₀ (norm_nonneg _)).1 h4
  refine ⟨hU, fun n => ?_⟩
  have h1 : Uᴴ * (A * U) = diagonal fun n => (e n : ℂ) := by
    rw [h.eig, ← Matrix.mul_assoc, h.unitary, Matrix.one_mul]
  have h2 := congrFun (congrFun h1 n) n
  rw [Matrix.diagonal_apply_eq, Matrix.mul_apply] at h2
  have h3 : |e n| = ‖(e n : ℂ)‖ := by rw [Complex.norm_real, Real.norm_eq_abs]
  rw [h3, ← h2]
  refine (norm_sum_le _ _).trans (Finset.sum_le_sum fun i _ => ?_)
  rw [norm_mul, conjTranspose_apply, norm_star, Matrix.mul_apply]
  have h4 : ‖∑ j, A i j * U j n‖ ≤ ∑ j, ‖A i j‖ := by
    refine (norm_sum_le _ _).trans (Finset.sum_le_sum fun j _ => ?_)
    rw [norm_mul]
    exact mul_le_of_le_one_right (norm_nonneg _) (hU j n)
  calc ‖U i n‖ * ‖∑ j, A i j * U j n‖ ≤ 1 * ‖∑ j, A i j * U j n‖ := mul_le_mul_of_nonneg_right (hU i n) (norm_nonneg _)
    _ ≤ _ := by rw [one_mul]; exact h4

/-- Quantities independent of the choice of eigenstates are continuous. -/
theorem tendsto_gauge (A : ℝ → Matrix (Fin nb) (Fin nb) ℂ) (hA : Continuous A) (e : ℝ → Fin nb → ℝ)
    (U : ℝ → Matrix (Fin nb) (Fin nb) ℂ) (h : ∀ t, Diagonalizes (A t) (e t) (U t)) (t : ℝ)
    (Ψ : (Fin nb → ℝ) → Matrix (Fin nb) (Fin nb) ℂ → ℂ)
    (hc : Continuous fun x : (Fin nb → ℝ) × Matrix (Fin nb) (Fin nb) ℂ => Ψ x.1 x.2)
    (hg : ∀ a T, Diagonalizes (A t) a T → Ψ a T = Ψ (e t) (U t)) :
    Tendsto (fun s => Ψ (e s) (U s)) (𝓝 t) (𝓝 (Ψ (e t) (U t))) := by
  rw [tendsto_iff_ultrafilter]
  intro g hgt
  -- bound on eigenvalues
  have hb : Continuous fun s => ∑ i, ∑ j, ‖A s i j‖ :=
    continuous_finset_sum _ fun i _ => continuous_finset_sum _ fun j _ => (hA.matrix_elem i j).norm
  set M := (∑ i, ∑ j, ‖A t i j‖) + 1 with hM
  have hev : ∀ᶠ s in (g : Filter ℝ), (∑ i, ∑ j, ‖A s i j‖) < M :=
    hgt (hb.continuousAt.eventually (gt_mem_nhds (by rw [hM]; linarith)))
  -- compact set
  let K : Set ((Fin nb → ℝ) × (Fin nb → Fin nb → ℂ)) :=
    (Set.univ.pi fun _ => Set.Icc (-M) M) ×ˢ (Set.univ.pi fun _ => Set.univ.pi fun _ => Metric.closedBall 0 1)
  have hK : IsCompact K := (isCompact_univ_pi fun _ => isCompact_Icc).prod
    (isCompact_univ_pi fun _ => isCompact_univ_pi fun _ => isCompact_closedBall _ _)
  let D : ℝ → (Fin nb → ℝ) × (Fin nb → Fin nb → ℂ) := fun s => (e s, U s)
  have hin : K ∈ Ultrafilter.map D g := by
    show D ⁻¹' K ∈ g
    filter_upwards [hev] with s hs
    obtain ⟨h1, h2⟩ := eig_bound (h s)
    refine ⟨fun n _ => ?_, fun i _ j _ => ?_⟩
    · exact abs_le.1 ((h2 n).trans hs.le)
    · rw [mem_closedBall_zero_iff]
      exact h1 i j
  obtain ⟨⟨a, T⟩, -, hle⟩ := hK.ultrafilter_le_nhds _ (le_principal_iff.2 hin)
  have hD : Tendsto D g (𝓝 (a, T)) := hle
  have ha : Tendsto e g (𝓝 a) := (continuous_fst.tendsto _).comp hD
  have hT : Tendsto U g (𝓝 (Matrix.of T)) := (continuous_snd.tendsto _).comp hD
  have hAt : Tendsto A g (𝓝 (A t)) := (hA.tendsto t).mono_left hgt
  have hdiag : Diagonalizes (A t) a (Matrix.of T) := by
    constructor
    · have h1 : Tendsto (fun s => A s * U s) g (𝓝 (A t * Matrix.of T)) := hAt.mul hT
      have h2 : Tendsto (fun s => U s * diagonal fun n => (e s n : ℂ)) g (𝓝 (Matrix.of T * diagonal fun n => (a n : ℂ))) := by
        refine hT.mul ?_
        have : Continuous fun a : Fin nb → ℝ => (diagonal fun n => (a n : ℂ) : Matrix (Fin nb) (Fin nb) ℂ) :=
          Continuous.matrix_diagonal (continuous_pi fun n => Complex.continuous_ofReal.comp (continuous_apply n))
        exact (this.tendsto a).comp ha
      have h3 : (fun s => A s * U s) = fun s => U s * diagonal fun n => (e s n : ℂ) := funext fun s => (h s).eig
      rw [h3] at h1
      exact tendsto_nhds_unique h1 h2
    · have h1 : Tendsto (fun s => (U s)ᴴ * U s) g (𝓝 ((Matrix.of T)ᴴ * Matrix.of T)) := by
        refine Tendsto.mul ?_ hT
        exact ((continuous_id.matrix_conjTranspose).tendsto (Matrix.of T)).comp hT
      have h3 : (fun s => (U s)ᴴ * U s) = fun _ => 1 := funext fun s => (h s).unitary
      rw [h3] at h1
      exact tendsto_nhds_unique h1 tendsto_const_nhds |>.symm ▸ rfl
  rw [← hg _ _ hdiag]
  exact (hc.tendsto (a, Matrix.of T)).comp (ha.prodMk_nhds hT)

theorem mix_continuous {α : Type} [TopologicalSpace α] (U W T : α → Matrix (Fin nb) (Fin nb) ℂ) (hU : Continuous U) (hW : Continuous W)
    (hT : Continuous T) (m n : Fin nb) : Continuous fun x => mix (U x) (W x) (T x) m n :=
  ((hU.matrix_conjTranspose.matrix_mul hW).matrix_mul hT).matrix_elem m n

/-! ### Derivatives -/

/-- First divided difference. -/
noncomputable def quot (F : ℝ → ℝ) (a b : ℝ) : ℂ := ((dslope F a b : ℝ) : ℂ)

/-- Second divided difference. -/
noncomputable def quot2 (F D P : ℝ → ℝ) (a b c : ℝ) : ℂ := ((chi0 F D P a b c : ℝ) : ℂ)

section
variable {F D P : ℝ → ℝ} (hF : ∀ x, HasDerivAt F (D x) x) (hD : ∀ x, HasDerivAt D (P x) x) (hP : Continuous P)
variable {H V : Matrix (Fin nb) (Fin nb) ℂ} {e : ℝ → Fin nb → ℝ} {U : ℝ → Matrix (Fin nb) (Fin nb) ℂ}
  (h : ∀ t : ℝ, Diagonalizes (H + (t : ℂ) • V) (e t) (U t))

include h in
theorem overlap_path (s t : ℝ) (m l : Fin nb) :
    mix (U t) 1 (U s) m l * (((e s l - e t m : ℝ) : ℂ)) = ((s - t : ℝ) : ℂ) * mix (U t) V (U s) m l := by
  have h1 := overlap (h t) (h s) m l
  rw [← Complex.ofReal_sub] at h1
  rw [h1, show H + (s : ℂ) • V - (H + (t : ℂ) • V) = ((s - t : ℝ) : ℂ) • V by rw [Complex.ofReal_sub, sub_smul]; abel]
  unfold mix
  rw [Matrix.mul_smul, Matrix.smul_mul, Matrix.smul_apply, smul_eq_mul]

theorem path_continuous (H V : Matrix (Fin nb) (Fin nb) ℂ) : Continuous fun t : ℝ => H + (t : ℂ) • V :=
  continuous_const.add (Complex.continuous_ofReal.smul continuous_const)

theorem dslope_mul (F : ℝ → ℝ) (a b : ℝ) : F b - F a = dslope F a b * (b - a) := by
  rw [mul_comm, ← smul_eq_mul, sub_smul_dslope]

include h in
theorem sum1_sub (W : Matrix (Fin nb) (Fin nb) ℂ) (s t : ℝ) : sum1 (fun x => (F x : ℂ)) (e s) (U s) W - sum1 (fun x => (F x : ℂ)) (e t) (U t) W =
    ((s - t : ℝ) : ℂ) * sum2 (quot F) (e t) (e s) (U t) (U s) V W := by
  rw [sum1_op, sum1_op, exchange (h t) (h s) fun x => (F x : ℂ) • W]
  unfold sum2 quot
  rw [Finset.mul_sum]
  refine Finset.sum_congr rfl fun m _ => ?_
  rw [Finset.mul_sum]
  refine Finset.sum_congr rfl fun l _ => ?_
  have h1 : mix (U s) ((F (e s l) : ℂ) • W - (F (e t m) : ℂ) • W) (U t) l m =
      ((F (e s l) - F (e t m) : ℝ) : ℂ) * mix (U s) W (U t) l m := by
    unfold mix
    rw [← sub_smul, ← Complex.ofReal_sub, Matrix.mul_smul, Matrix.smul_mul, Matrix.smul_apply, smul_eq_mul]
  rw [h1, dslope_mul F, Complex.ofReal_mul]
  linear_combination ((dslope F (e t m) (e s l) : ℝ) : ℂ) * mix (U s) W (U t) l m * overlap_path h s t m l

include hF hD h in
theorem sum1_deriv (W : Matrix (Fin nb) (Fin nb) ℂ) (t : ℝ) :
    HasDerivAt (fun s => sum1 (fun x => (F x : ℂ)) (e s) (U s) W) (sum2 (quot F) (e t) (e t) (U t) (U t) V W) t := by
  rw [hasDerivAt_iff_tendsto_slope]
  have h1 : Tendsto (fun s => sum2 (quot F) (e t) (e s) (U t) (U s) V W) (𝓝 t) (𝓝 (sum2 (quot F) (e t) (e t) (U t) (U t) V W)) := by
    refine tendsto_gauge _ (path_continuous H V) e U h t (fun a T => sum2 (quot F) (e t) a (U t) T V W) ?_ ?_
    · unfold sum2 quot
      refine continuous_finset_sum _ fun m _ => continuous_finset_sum _ fun n _ => Continuous.mul ?_ (Continuous.mul ?_ ?_)
      · exact Complex.continuous_ofReal.comp ((continuous_dslope hF hD).comp
          (continuous_const.prodMk ((continuous_apply n).comp continuous_fst)))
      · exact mix_continuous _ _ _ continuous_const continuous_const continuous_snd m n
      · exact mix_continuous _ _ _ continuous_snd continuous_const continuous_const n m
    · intro a T hT
      exact sum2_gauge _ (h t) (h t) (h t) hT _ _
  refine (h1.mono_left nhdsWithin_le_nhds).congr' ?_
  filter_upwards [self_mem_nhdsWithin] with s hs
  have hst : ((s - t : ℝ) : ℂ) ≠ 0 := Complex.ofReal_ne_zero.2 (sub_ne_zero.2 hs)
  rw [slope_def_module, sum1_sub h, ← Complex.coe_smul, smul_eq_mul, Complex.ofReal_inv, inv_mul_cancel_left₀ hst]

include hF h in
theorem sum2_sub (b : Fin nb → ℝ) (T X Z : Matrix (Fin nb) (Fin nb) ℂ) (s t : ℝ) :
    sum2 (quot F) (e s) b (U s) T X Z - sum2 (quot F) (e t) b (U t) T X Z =
      ((s - t : ℝ) : ℂ) * sum3 (quot2 F D P) (e t) (e s) b (U t) (U s) T V X Z := by
  rw [sum2_op, sum2_op, exchange (h t) (h s) (op2 (quot F) b T X Z)]
  unfold sum3 quot2
  rw [Finset.mul_sum]
  refine Finset.sum_congr rfl fun m _ => ?_
  rw [Finset.mul_sum]
  refine Finset.sum_congr rfl fun l _ => ?_
  have h1 : mix (U s) (op2 (quot F) b T X Z (e s l) - op2 (quot F) b T X Z (e t m)) (U t) l m =
      ∑ n, ((chi0 F D P (e t m) (e s l) (b n) * (e s l - e t m) : ℝ) : ℂ) * (mix (U s) X T l n * mix T Z (U t) n m) := by
    have h2 : ∀ P Q : Matrix (Fin nb) (Fin nb) ℂ, mix (U s) (P - Q) (U t) l m = mix (U s) P (U t) l m - mix (U s) Q (U t) l m := by
      intro P Q
      unfold mix
      rw [Matrix.mul_sub, Matrix.sub_mul, Matrix.sub_apply]
    rw [h2, mix_op2, mix_op2, ← Finset.sum_sub_distrib]
    refine Finset.sum_congr rfl fun n _ => ?_
    unfold quot
    rw [← sub_mul, ← Complex.ofReal_sub]
    congr 2
    by_cases hx : e s l = e t m
    · rw [hx, sub_self, sub_self, mul_zero]
    · rw [chi0_swap F D P (e s l) (e t m) (b n), chi0_swap' F D P (e s l) (b n) (e t m), chi0_quot hF _ _ _ hx,
        dslope_symm hF (e t m) (b n), div_mul_cancel₀ _ (sub_ne_zero.2 hx)]
  rw [h1, Finset.mul_sum, Finset.mul_sum]
  refine Finset.sum_congr rfl fun n _ => ?_
  rw [Complex.ofReal_mul]
  linear_combination (chi0 F D P (e t m) (e s l) (b n) : ℂ) * mix (U s) X T l n * mix T Z (U t) n m * overlap_path h s t m l

include hF hD hP h in
theorem sum2_deriv (X Z : Matrix (Fin nb) (Fin nb) ℂ) (t : ℝ) :
    HasDerivAt (fun s => sum2 (quot F) (e s) (e s) (U s) (U s) X Z)
      (sum3 (quot2 F D P) (e t) (e t) (e t) (U t) (U t) (U t) V X Z + sum3 (quot2 F D P) (e t) (e t) (e t) (U t) (U t) (U t) V Z X) t := by
  rw [hasDerivAt_iff_tendsto_slope]
  have hc := chi0_continuous hF hD hP
  have h1 : Tendsto (fun s => sum3 (quot2 F D P) (e t) (e s) (e s) (U t) (U s) (U s) V X Z) (𝓝 t)
      (𝓝 (sum3 (quot2 F D P) (e t) (e t) (e t) (U t) (U t) (U t) V X Z)) := by
    refine tendsto_gauge _ (path_continuous H V) e U h t (fun a T => sum3 (quot2 F D P) (e t) a a (U t) T T V X Z) ?_ ?_
    · unfold sum3 quot2
      refine continuous_finset_sum _ fun m _ => continuous_finset_sum _ fun n _ => continuous_finset_sum _ fun l _ =>
        Continuous.mul ?_ (Continuous.mul (Continuous.mul ?_ ?_) ?_)
      · have h3 : Continuous fun x : (Fin nb → ℝ) × Matrix (Fin nb) (Fin nb) ℂ => (e t m, x.1 n, x.1 l) := by fun_prop
        exact Complex.continuous_ofReal.comp (hc.comp h3)
      · exact mix_continuous _ _ _ continuous_const continuous_const continuous_snd m n
      · exact mix_continuous _ _ _ continuous_snd continuous_const continuous_snd n l
      · exact mix_continuous _ _ _ continuous_snd continuous_const continuous_const l m
    · intro a T hT
      exact sum3_gauge _ (h t) (h t) (h t) hT (h t) hT _ _ _
  have h2 : Tendsto (fun s => sum3 (quot2 F D P) (e t) (e s) (e t) (U t) (U s) (U t) V Z X) (𝓝 t)
      (𝓝 (sum3 (quot2 F D P) (e t) (e t) (e t) (U t) (U t) (U t) V Z X)) := by
    refine tendsto_gauge _ (path_continuous H V) e U h t (fun a T => sum3 (quot2 F D P) (e t) a (e t) (U t) T (U t) V Z X) ?_ ?_
    · unfold sum3 quot2
      refine continuous_finset_sum _ fun m _ => continuous_finset_sum _ fun n _ => continuous_finset_sum _ fun l _ =>
        Continuous.mul ?_ (Continuous.mul (Continuous.mul ?_ ?_) continuous_const)
      · have h3 : Continuous fun x : (Fin nb → ℝ) × Matrix (Fin nb) (Fin nb) ℂ => (e t m, x.1 n, e t l) := by fun_prop
        exact Complex.continuous_ofReal.comp (hc.comp h3)
      · exact mix_continuous _ _ _ continuous_const continuous_const continuous_snd m n
      · exact mix_continuous _ _ _ continuous_snd continuous_const continuous_const n l
    · intro a T hT
      exact sum3_gauge _ (h t) (h t) (h t) hT (h t) (h t) _ _ _
  refine ((h1.add h2).mono_left nhdsWithin_le_nhds).congr' ?_
  filter_upwards [self_mem_nhdsWithin] with s hs
  have hst : ((s - t : ℝ) : ℂ) ≠ 0 := Complex.ofReal_ne_zero.2 (sub_ne_zero.2 hs)
  have hsym : (fun x y => quot F y x) = quot F := by
    funext x y
    unfold quot
    rw [dslope_symm hF y x]
  have key : sum2 (quot F) (e s) (e s) (U s) (U s) X Z - sum2 (quot F) (e t) (e t) (U t) (U t) X Z = ((s - t : ℝ) : ℂ) *
      (sum3 (quot2 F D P) (e t) (e s) (e s) (U t) (U s) (U s) V X Z + sum3 (quot2 F D P) (e t) (e s) (e t) (U t) (U s) (U t) V Z X) := by
    rw [mul_add, ← sum2_sub hF h, ← sum2_sub hF h, sum2_flip (quot F) (e s) (e t), sum2_flip (quot F) (e t) (e t) (U t) (U t) Z X, hsym]
    ring
  rw [slope_def_module, key, ← Complex.coe_smul, smul_eq_mul, Complex.ofReal_inv, inv_mul_cancel_left₀ hst]

end

theorem sum3_sym (F D P : ℝ → ℝ) (a : Fin nb → ℝ) (U X Y Z : Matrix (Fin nb) (Fin nb) ℂ) :
    sum3 (quot2 F D P) a a a U U U X Y Z = sum3 (quot2 F D P) a a a U U U Y Z X := by
  rw [sum3_cyc]
  congr 1
  funext x y z
  unfold quot2
  rw [chi0_swap, chi0_swap']

/-! ### C152 -/

section
variable {n1 n2 n3 : Nat} [NeZero n1] [NeZero n2] [NeZero n3]

theorem onMesh_zero : OnMesh (fun _ => 0 : Fin 3 → ℝ) (0 : Mesh n1 n2 n3) := by
  refine ⟨fun _ => 0, ?_, ?_, ?_⟩ <;> simp

theorem star_mix (U W T : Matrix (Fin nb) (Fin nb) ℂ) (m n : Fin nb) : star (mix U W T m n) = mix T Wᴴ U n m := by
  have : (Uᴴ * W * T)ᴴ = Tᴴ * Wᴴ * U := by
    rw [conjTranspose_mul, conjTranspose_mul, conjTranspose_conjTranspose]
    noncomm_ring
  exact congrFun (congrFun this n) m

theorem firstOrder_sum (kT : ℝ) (occ : ℝ → ℝ) (e : Mesh n1 n2 n3 → Fin nb → ℝ) (U W : Mesh n1 n2 n3 → Matrix (Fin nb) (Fin nb) ℂ) :
    (firstOrder kT occ e fun k => mix (U k) (W k) (U k)) =
      2 / ((n1 * n2 * n3 : Nat) : ℂ) * ∑ k, sum1 (fun x => ((occ (x / kT) : ℝ) : ℂ)) (e k) (U k) (W k) := rfl

theorem selfEnergy_sum (kT : ℝ) (occ delta : ℝ → ℝ) (h1 : ∀ x, HasDerivAt occ (-delta x) x) (sym : Bool)
    (e : Mesh n1 n2 n3 → Fin nb → ℝ) (U W Z : Mesh n1 n2 n3 → Matrix (Fin nb) (Fin nb) ℂ) :
    selfEnergy sym false (fun k m n => (weights 0 kT occ delta none e (fun _ => 0) k m n : ℂ)) (fun _ _ => 0)
        (pair (fun k => mix (U k) (W k) (U k)) fun k => mix (U k) (Z k) (U k)) none false true =
      2 / ((n1 * n2 * n3 : Nat) : ℂ) * ∑ k, sum2 (quot fun x => occ (x / kT)) (e k) (e k) (U k) (U k) (W k)ᴴ (Z k) := by
  rw [C52_value kT occ delta h1 sym _ _ 0 onMesh_zero]
  congr 1
  refine Finset.sum_congr rfl fun k _ => ?_
  unfold sum2
  rw [Finset.sum_comm]
  refine Finset.sum_congr rfl fun n _ => Finset.sum_congr rfl fun m _ => ?_
  rw [pair_false, pair_true, star_mix, add_zero, mul_comm]
  rfl

theorem triangle_sum (kT : ℝ) (occ delta deltaPrime : ℝ → ℝ) (h1 : ∀ x, HasDerivAt occ (-delta x) x)
    (h2 : ∀ x, HasDerivAt delta (deltaPrime x) x) (e : Mesh n1 n2 n3 → Fin nb → ℝ)
    (U X Y Z : Mesh n1 n2 n3 → Matrix (Fin nb) (Fin nb) ℂ) :
    (triangle 0 kT occ delta deltaPrime e (fun _ => 0) (fun _ => 0) (fun k => mix (U k) (X k) (U k))
        (fun k => mix (U k) (Y k) (U k)) fun k => mix (U k) (Z k) (U k)) = 4 / ((n1 * n2 * n3 : Nat) : ℂ) * ∑ k,
      sum3 (quot2 (fun x => occ (x / kT)) (fun x => delta (x / kT) / -kT) fun x => -(deltaPrime (x / kT) / kT ^ 2))
        (e k) (e k) (e k) (U k) (U k) (U k) (X k)ᴴ (Z k) (Y k) := by
  rw [C53_sum kT occ delta deltaPrime h1 h2 _ _ _ 0 0 onMesh_zero onMesh_zero]
  congr 1
  refine Finset.sum_congr rfl fun k _ => ?_
  unfold sum3 quot2
  refine Finset.sum_congr rfl fun a _ => Finset.sum_congr rfl fun b _ => Finset.sum_congr rfl fun c _ => ?_
  rw [star_mix, add_zero, chi0_divDiff2 (occ_hasDerivAt kT occ delta h1) (delta_hasDerivAt kT delta deltaPrime h2)]
  ring

variable {H V : Mesh n1 n2 n3 → Matrix (Fin nb) (Fin nb) ℂ} {e : Mesh n1 n2 n3 → ℝ → Fin nb → ℝ}
  {U : Mesh n1 n2 n3 → ℝ → Matrix (Fin nb) (Fin nb) ℂ} (hs : ∀ k (t : ℝ), Diagonalizes (H k + (t : ℂ) • V k) (e k t) (U k t))
  (hV : ∀ k, (V k)ᴴ = V k)
variable (kT : ℝ) (occ delta deltaPrime entropy : ℝ → ℝ) (h1 : ∀ x, HasDerivAt occ (-delta x) x)
  (h2 : ∀ x, HasDerivAt delta (deltaPrime x) x) (hc : Continuous deltaPrime)
  (h3 : ∀ x, HasDerivAt entropy (-x * delta x) x)

include hs h1 h3 in
/-- C152: the derivative of the grand potential is the first-order diagram. -/
theorem C152_first (hkT : kT ≠ 0) (t : ℝ) : HasDerivAt (fun t => (grandPotential kT occ entropy (fun k => e k t) : ℂ))
    (firstOrder kT occ (fun k => e k t) fun k => mix (U k t) (V k) (U k t)) t := by
  have hw := omega1_deriv kT hkT occ delta entropy h1 h3
  have h0 : (fun t => (grandPotential kT occ entropy (fun k => e k t) : ℂ)) = fun t => 2 / ((n1 * n2 * n3 : Nat) : ℂ) *
      ∑ k, sum1 (fun x => ((omega1 kT occ entropy x : ℝ) : ℂ)) (e k t) (U k t) 1 := by
    funext t
    rw [grandPotential_eq]
    push_cast
    congr 1
    refine Finset.sum_congr rfl fun k _ => Finset.sum_congr rfl fun n _ => ?_
    unfold mix
    rw [Matrix.mul_one, (hs k t).unitary, Matrix.one_apply_eq, mul_one]
  rw [h0, firstOrder_sum]
  refine HasDerivAt.const_mul _ (HasDerivAt.fun_sum fun k _ => ?_)
  refine (sum1_deriv hw (occ_hasDerivAt kT occ delta h1) (hs k) 1 t).congr_deriv ?_
  -- completeness
  unfold sum2
  have hd : ∀ m n, mix (U k t) 1 (U k t) n m = if n = m then 1 else 0 := by
    intro m n
    unfold mix
    rw [Matrix.mul_one, (hs k t).unitary, Matrix.one_apply]
  simp only [hd, mul_ite, mul_one, mul_zero, Finset.sum_ite_eq', Finset.mem_univ, if_true]
  refine Finset.sum_congr rfl fun m _ => ?_
  unfold quot
  rw [dslope_same, (hw _).deriv]

include hs hV h1 h2 in
/-- C152: the derivative of the first-order diagram for another perturbation `W` is the self-energy for `V` and `W`. -/
theorem C152_second (sym : Bool) (W : Mesh n1 n2 n3 → Matrix (Fin nb) (Fin nb) ℂ) (t : ℝ) :
    HasDerivAt (fun t => firstOrder kT occ (fun k => e k t) fun k => mix (U k t) (W k) (U k t))
      (selfEnergy sym false (fun k m n => (weights 0 kT occ delta none (fun k => e k t) (fun _ => 0) k m n : ℂ)) (fun _ _ => 0)
        (pair (fun k => mix (U k t) (V k) (U k t)) fun k => mix (U k t) (W k) (U k t)) none false true) t := by
  rw [selfEnergy_sum kT occ delta h1]
  simp only [hV]
  refine HasDerivAt.const_mul _ (HasDerivAt.fun_sum fun k _ => ?_)
  exact sum1_deriv (occ_hasDerivAt kT occ delta h1) (delta_hasDerivAt kT delta deltaPrime h2) (hs k) (W k) t

include hs h1 h2 hc in
/-- C152: the derivative of the self-energy for perturbations `W` and `Z` is the mean of the triangle diagrams for both orders of
perturbations. -/
theorem C152_third (sym : Bool) (W Z : Mesh n1 n2 n3 → Matrix (Fin nb) (Fin nb) ℂ) (t : ℝ) :
    HasDerivAt (fun t => selfEnergy sym false (fun k m n => (weights 0 kT occ delta none (fun k => e k t) (fun _ => 0) k m n : ℂ))
        (fun _ _ => 0) (pair (fun k => mix (U k t) (W k) (U k t)) fun k => mix (U k t) (Z k) (U k t)) none false true)
      (((triangle 0 kT occ delta deltaPrime (fun k => e k t) (fun _ => 0) (fun _ => 0) (fun k => mix (U k t) (W k) (U k t))
          (fun k => mix (U k t) (Z k) (U k t)) fun k => mix (U k t) (V k) (U k t)) +
        triangle 0 kT occ delta deltaPrime (fun k => e k t) (fun _ => 0) (fun _ => 0) (fun k => mix (U k t) (W k) (U k t))
          (fun k => mix (U k t) (V k) (U k t)) fun k => mix (U k t) (Z k) (U k t)) / 2) t := by
  have hF := occ_hasDerivAt kT occ delta h1
  have hD := delta_hasDerivAt kT delta deltaPrime h2
  have hP : Continuous fun x => -(deltaPrime (x / kT) / kT ^ 2) :=
    ((hc.comp (continuous_id.div_const kT)).div_const _).neg
  simp only [selfEnergy_sum kT occ delta h1]
  rw [triangle_sum kT occ delta deltaPrime h1 h2, triangle_sum kT occ delta deltaPrime h1 h2, ← mul_add, ← Finset.sum_add_distrib,
    show ∀ x y : ℂ, 4 / x * y / 2 = 2 / x * y from fun x y => by ring]
  refine HasDerivAt.const_mul _ (HasDerivAt.fun_sum fun k _ => ?_)
  have hk := sum2_deriv hF hD hP (hs k) (W k)ᴴ (Z k) t
  rw [sum3_sym _ _ _ _ _ (V k) (W k)ᴴ (Z k), sum3_sym _ _ _ _ _ (V k) (Z k) (W k)ᴴ, sum3_sym _ _ _ _ _ (Z k) (W k)ᴴ (V k), add_comm] at hk
  exact hk

include hs hV h1 h2 hc h3 in
/-- C152: along the path `H + t V`, the diagrams of first, second, and third order are the successive derivatives of the grand
potential. -/
theorem C152_expansion (hkT : kT ≠ 0) (sym : Bool) (t : ℝ) :
    HasDerivAt (fun t => (grandPotential kT occ entropy (fun k => e k t) : ℂ))
      (firstOrder kT occ (fun k => e k t) fun k => mix (U k t) (V k) (U k t)) t ∧
    HasDerivAt (fun t => firstOrder kT occ (fun k => e k t) fun k => mix (U k t) (V k) (U k t))
      (selfEnergy sym false (fun k m n => (weights 0 kT occ delta none (fun k => e k t) (fun _ => 0) k m n : ℂ)) (fun _ _ => 0)
        (fun _ : Unit => fun k => mix (U k t) (V k) (U k t)) none () ()) t ∧
    HasDerivAt (fun t => selfEnergy sym false (fun k m n => (weights 0 kT occ delta none (fun k => e k t) (fun _ => 0) k m n : ℂ))
        (fun _ _ => 0) (fun _ : Unit => fun k => mix (U k t) (V k) (U k t)) none () ())
      (triangle 0 kT occ delta deltaPrime (fun k => e k t) (fun _ => 0) (fun _ => 0) (fun k => mix (U k t) (V k) (U k t))
        (fun k => mix (U k t) (V k) (U k t)) fun k => mix (U k t) (V k) (U k t)) t := by
  have key : ∀ t, selfEnergy sym false (fun k m n => (weights 0 kT occ delta none (fun k => e k t) (fun _ => 0) k m n : ℂ))
        (fun _ _ => 0) (pair (fun k => mix (U k t) (V k) (U k t)) fun k => mix (U k t) (V k) (U k t)) none false true =
      selfEnergy sym false (fun k m n => (weights 0 kT occ delta none (fun k => e k t) (fun _ => 0) k m n : ℂ))
        (fun _ _ => 0) (fun _ : Unit => fun k => mix (U k t) (V k) (U k t)) none () () := by
    intro t
    rw [C52_value kT occ delta h1 sym _ _ 0 onMesh_zero, C52_value kT occ delta h1 sym _ _ 0 onMesh_zero]
    rfl
  refine ⟨C152_first hs kT occ delta entropy h1 h3 hkT t, ?_, ?_⟩
  · rw [← key]
    exact C152_second hs hV kT occ delta deltaPrime h1 h2 sym V t
  · have h := C152_third hs kT occ delta deltaPrime h1 h2 hc sym V V t
    simp only [key] at h
    exact h.congr_deriv (by ring)

include hs hV in
/-- C152 (Fermi-Dirac): also for functions as implemented, if energies close to `t` are in the range that is not clipped. -/
theorem C152_expansion_fermi (hkT : kT ≠ 0) (sym : Bool) (t : ℝ) (hev : ∀ᶠ s in 𝓝 t, ∀ k n, |e k s n / kT| ≤ 709) :
    HasDerivAt (fun t => (grandPotential kT fermiDirac fermiDiracEntropy (fun k => e k t) : ℂ))
      (firstOrder kT fermiDirac (fun k => e k t) fun k => mix (U k t) (V k) (U k t)) t ∧
    HasDerivAt (fun t => firstOrder kT fermiDirac (fun k => e k t) fun k => mix (U k t) (V k) (U k t))
      (selfEnergy sym false (fun k m n => (weights 0 kT fermiDirac fermiDiracDelta none (fun k => e k t) (fun _ => 0) k m n : ℂ))
        (fun _ _ => 0) (fun _ : Unit => fun k => mix (U k t) (V k) (U k t)) none () ()) t ∧
    HasDerivAt (fun t => selfEnergy sym false
        (fun k m n => (weights 0 kT fermiDirac fermiDiracDelta none (fun k => e k t) (fun _ => 0) k m n : ℂ))
        (fun _ _ => 0) (fun _ : Unit => fun k => mix (U k t) (V k) (U k t)) none () ())
      (triangle 0 kT fermiDirac fermiDiracDelta fermiDiracDeltaPrime (fun k => e k t) (fun _ => 0) (fun _ => 0)
        (fun k => mix (U k t) (V k) (U k t)) (fun k => mix (U k t) (V k) (U k t)) fun k => mix (U k t) (V k) (U k t)) t := by
  have h0 := hev.self_of_nhds
  have k1 : ∀ s, (∀ k n, |e k s n / kT| ≤ 709) → grandPotential kT fermiDirac fermiDiracEntropy (fun k => e k s) =
      grandPotential kT fd fdEntropy fun k => e k s := fun s h => grandPotential_fd kT _ h
  have k2 : ∀ s, (∀ k n, |e k s n / kT| ≤ 709) → (firstOrder kT fermiDirac (fun k => e k s) fun k => mix (U k s) (V k) (U k s)) =
      firstOrder kT fd (fun k => e k s) fun k => mix (U k s) (V k) (U k s) := by
    intro s h
    unfold firstOrder
    simp only [fun k n => fd_eq _ (h k n)]
  have k3 : ∀ s, (∀ k n, |e k s n / kT| ≤ 709) → selfEnergy sym false
        (fun k m n => (weights 0 kT fermiDirac fermiDiracDelta none (fun k => e k s) (fun _ => 0) k m n : ℂ))
        (fun _ _ => 0) (fun _ : Unit => fun k => mix (U k s) (V k) (U k s)) none () () = selfEnergy sym false
        (fun k m n => (weights 0 kT fd fdDelta none (fun k => e k s) (fun _ => 0) k m n : ℂ))
        (fun _ _ => 0) (fun _ : Unit => fun k => mix (U k s) (V k) (U k s)) none () () := by
    intro s h
    simp only [weights_fd 0 kT none (fun k => e k s) h]
  have hq : OnMesh (fun _ => 0 : Fin 3 → ℝ) (0 : Mesh n1 n2 n3) := by
    refine ⟨fun _ => 0, ?_, ?_, ?_⟩ <;> simp
  have k4 : (triangle 0 kT fermiDirac fermiDiracDelta fermiDiracDeltaPrime (fun k => e k t) (fun _ => 0) (fun _ => 0)
        (fun k => mix (U k t) (V k) (U k t)) (fun k => mix (U k t) (V k) (U k t)) fun k => mix (U k t) (V k) (U k t)) =
      triangle 0 kT fd fdDelta fdPrime (fun k => e k t) (fun _ => 0) (fun _ => 0)
        (fun k => mix (U k t) (V k) (U k t)) (fun k => mix (U k t) (V k) (U k t)) fun k => mix (U k t) (V k) (U k t) := by
    unfold triangle
    simp only [slice_q _ _ 0 _ hq, triangleFactor_fd 0 kT _ _ _ (h0 _ _) (h0 _ _) (h0 _ _)]
  obtain ⟨a1, a2, a3⟩ := C152_expansion hs hV kT fd fdDelta fdPrime fdEntropy fd_deriv fdDelta_deriv fdPrime_continuous fdEntropy_deriv
    hkT sym t
  rw [k2 t h0, k3 t h0, k4]
  refine ⟨a1.congr_of_eventuallyEq ?_, a2.congr_of_eventuallyEq ?_, a3.congr_of_eventuallyEq ?_⟩
  · filter_upwards [hev] with s h
    rw [k1 s h]
  · filter_upwards [hev] with s h
    exact k2 s h
  · filter_upwards [hev] with s h
    exact k3 s h

end

/-- Spectral theorem. -/
theorem exists_diagonalizes (A : Matrix (Fin nb) (Fin nb) ℂ) (hA : A.IsHermitian) : ∃ e U, Diagonalizes A e U := by
  refine ⟨hA.eigenvalues, (hA.eigenvectorUnitary : Matrix (Fin nb) (Fin nb) ℂ), ?_, ?_⟩
  · have h1 := hA.spectral_theorem
    rw [Unitary.conjStarAlgAut_apply] at h1
    have h2 := congrArg (fun B => B * (hA.eigenvectorUnitary : Matrix (Fin nb) (Fin nb) ℂ)) h1
    simp only [Matrix.mul_assoc, Unitary.coe_star_mul_self, Matrix.mul_one] at h2
    exact h2
  · exact Unitary.coe_star_mul_self _

/-- Hypotheses of the above theorems for two levels coupled by the perturbation. -/
example : ∃ (e : ℝ → Fin 2 → ℝ) (U : ℝ → Matrix (Fin 2) (Fin 2) ℂ),
    (∀ t : ℝ, Diagonalizes (!![1, 0; 0, -1] + (t : ℂ) • !![0, 1; 1, 0]) (e t) (U t)) ∧
    (!![0, 1; 1, 0] : Matrix (Fin 2) (Fin 2) ℂ)ᴴ = !![0, 1; 1, 0] ∧ ∀ t, ∑ n, e t n ^ 2 = 2 * (1 + t ^ 2) := by
  have hh : ∀ t : ℝ, (!![1, 0; 0, -1] + (t : ℂ) • !![0, 1; 1, 0] : Matrix (Fin 2) (Fin 2) ℂ).IsHermitian := by
    intro t
    ext a b
    fin_cases a <;> fin_cases b <;> simp
  choose e U h using fun t => exists_diagonalizes _ (hh t)
  refine ⟨e, U, h, ?_, ?_⟩
  · ext a b
    fin_cases a <;> fin_cases b <;> simp
  · intro t
    -- trace of the square
    have h1 := (h t).eig
    have h2 := mul_unitary (h t)
    have h3 : ((!![1, 0; 0, -1] + (t : ℂ) • !![0, 1; 1, 0] : Matrix (Fin 2) (Fin 2) ℂ) *
        (!![1, 0; 0, -1] + (t : ℂ) • !![0, 1; 1, 0])).trace =
        ((diagonal fun n => (e t n : ℂ)) * (diagonal fun n => (e t n : ℂ)) : Matrix (Fin 2) (Fin 2) ℂ).trace := by
      generalize (!![1, 0; 0, -1] + (t : ℂ) • !![0, 1; 1, 0] : Matrix (Fin 2) (Fin 2) ℂ) = A at *
      have h4 : A = U t * (diagonal fun n => (e t n : ℂ)) * (U t)ᴴ := by
        rw [← h1, Matrix.mul_assoc, h2, Matrix.mul_one]
      calc (A * A).trace = (A * (A * (U t * (U t)ᴴ))).trace := by rw [h2, Matrix.mul_one]
        _ = (A * U t * (diagonal fun n => (e t n : ℂ)) * (U t)ᴴ).trace := by
          rw [← Matrix.mul_assoc A (U t), h1]
          simp only [← Matrix.mul_assoc]
          rw [h1]
        _ = (U t * ((diagonal fun n => (e t n : ℂ)) * (diagonal fun n => (e t n : ℂ))) * (U t)ᴴ).trace := by
          simp only [← Matrix.mul_assoc]
          rw [h1]
        _ = _ := by rw [Matrix.trace_mul_comm, ← Matrix.mul_assoc, (h t).unitary, Matrix.one_mul]
    rw [Matrix.diagonal_mul_diagonal, Matrix.trace_diagonal] at h3
    have h5 : ((∑ n, e t n ^ 2 : ℝ) : ℂ) = ((2 * (1 + t ^ 2) : ℝ) : ℂ) := by
      push_cast
      rw [Finset.sum_congr rfl fun n _ => sq ((e t n : ℝ) : ℂ), ← h3]
      simp [Matrix.trace, Fin.sum_univ_two]
      ring
    exact_mod_cast h5

end Verif.Diag.Derivatives
