import Verif.Bands.Dispersion
import Mathlib.LinearAlgebra.FiniteDimensional.Lemmas
import Mathlib.LinearAlgebra.Matrix.ToLin
import Mathlib.Algebra.Order.Chebyshev

/-!
# Property C174: eigenvalues of similar matrices are similar
-/

namespace Verif.Bands

open Matrix

variable {d : Nat}

/-! ### Specification -/

/-- The Hermitian matrix that `numpy.linalg.eigvalsh` and `eigh` diagonalize: only the lower triangle is used, imaginary parts of the diagonal
are ignored. -/
noncomputable def lower (A : Matrix (Fin d) (Fin d) ℂ) : Matrix (Fin d) (Fin d) ℂ :=
  fun a b => if b < a then A a b else if a < b then star (A b a) else ((A a a).re : ℂ)

/-- Eigenvalues in ascending order. -/
def Spectrum (A : Matrix (Fin d) (Fin d) ℂ) (v : Fin d → ℝ) : Prop :=
  Monotone v ∧ ∃ V, Eigenpairs (lower A) (fun n => (v n : ℂ)) V ∧ OrthoCols V

/-! ### Proofs -/

theorem lower_hermitian (A : Matrix (Fin d) (Fin d) ℂ) (h : ∀ a b, star (A b a) = A a b) : lower A = A := by
  funext a b
  unfold lower
  split
  · rfl
  · split
    · exact h a b
    · have hab : a = b := by
        apply le_antisymm <;> exact not_lt.1 (by assumption)
      subst hab
      have := h a a
      rw [Complex.star_def, Complex.conj_eq_iff_re] at this
      exact this

theorem lower_close (A B : Matrix (Fin d) (Fin d) ℂ) {ε : ℝ} (h : ∀ a b, ‖A a b - B a b‖ ≤ ε) (a b : Fin d) :
    ‖lower A a b - lower B a b‖ ≤ ε := by
  unfold lower
  split
  · exact h a b
  · split
    · rw [← star_sub, norm_star]
      exact h b a
    · rw [← Complex.ofReal_sub, ← Complex.sub_re, Complex.norm_real, Real.norm_eq_abs]
      exact (Complex.abs_re_le_norm _).trans (h a a)

/-- Expectation value in terms of eigenvalues. -/
theorem expectation (A : Matrix (Fin d) (Fin d) ℂ) (v : Fin d → ℝ) (V : Fin d → Fin d → ℂ) (hv : Eigenpairs A (fun n => (v n : ℂ)) V)
    (hV : OrthoCols V) (c : Fin d → ℂ) :
    star ((Matrix.of V) *ᵥ c) ⬝ᵥ (A *ᵥ ((Matrix.of V) *ᵥ c)) = ((∑ n, v n * ‖c n‖ ^ 2 : ℝ) : ℂ) := by
  have hU : (Matrix.of V)ᴴ * Matrix.of V = 1 := by
    ext m n
    rw [Matrix.mul_apply, Matrix.one_apply]
    exact hV m n
  have hA : A * Matrix.of V = Matrix.of V * Matrix.diagonal fun n => (v n : ℂ) := by
    ext x n
    rw [Matrix.mul_apply, Matrix.mul_diagonal, mul_comm]
    exact hv n x
  rw [Matrix.mulVec_mulVec, hA, Matrix.star_mulVec, ← Matrix.dotProduct_mulVec, Matrix.mulVec_mulVec, ← Matrix.mul_assoc, hU, Matrix.one_mul]
  simp only [dotProduct, Matrix.mulVec_diagonal, Pi.star_apply]
  push_cast
  refine Finset.sum_congr rfl fun n _ => ?_
  rw [← Complex.conj_mul']
  simp only [Complex.star_def]
  ring

theorem norm_vec (V : Fin d → Fin d → ℂ) (hV : OrthoCols V) (c : Fin d → ℂ) : ∑ x, ‖((Matrix.of V) *ᵥ c) x‖ ^ 2 = ∑ n, ‖c n‖ ^ 2 := by
  have h := expectation (1 : Matrix (Fin d) (Fin d) ℂ) (fun _ => 1) V (fun n x => by
    simp [Matrix.one_apply]) hV c
  rw [Matrix.one_mulVec] at h
  have e : star ((Matrix.of V) *ᵥ c) ⬝ᵥ ((Matrix.of V) *ᵥ c) = ((∑ x, ‖((Matrix.of V) *ᵥ c) x‖ ^ 2 : ℝ) : ℂ) := by
    simp only [dotProduct, Pi.star_apply]
    push_cast
    exact Finset.sum_congr rfl fun x _ => by rw [← Complex.conj_mul', Complex.star_def]
  rw [e] at h
  simpa using Complex.ofReal_injective h

/-- A combination of the lowest eigenvectors of one matrix that is orthogonal to the lowest eigenvectors of another one. -/
theorem exists_combination (U : Matrix (Fin d) (Fin d) ℂ) (n : Fin d) :
    ∃ c : Fin d → ℂ, c ≠ 0 ∧ (∀ m, n < m → c m = 0) ∧ ∀ m, m < n → (U *ᵥ c) m = 0 := by
  let L : (Fin d → ℂ) →ₗ[ℂ] (Fin d → ℂ) :=
    { toFun := fun c m => if m < n then (U *ᵥ c) m else if n < m then c m else 0
      map_add' := by
        intro c c'
        funext m
        simp only [Matrix.mulVec_add, Pi.add_apply]
        split
        · rfl
        · split <;> simp
      map_smul' := by
        intro r c
        funext m
        simp only [Matrix.mulVec_smul, Pi.smul_apply, smul_eq_mul, RingHom.id_apply]
        split
        · rfl
        · split <;> simp }
  have hns : ¬ Function.Surjective L := by
    intro h
    obtain ⟨c, hc⟩ := h (Pi.single n 1)
    have := congrFun hc n
    rw [Pi.single_eq_same] at this
    have h0 : L c n = 0 := by
      show (if n < n then (U *ᵥ c) n else if n < n then c n else 0) = 0
      simp
    rw [h0] at this
    exact zero_ne_one this
  have hni : ¬ Function.Injective L := fun h => hns (LinearMap.injective_iff_surjective.1 h)
  rw [← LinearMap.ker_eq_bot] at hni
  obtain ⟨c, hc, hc0⟩ := (Submodule.ne_bot_iff _).1 hni
  rw [LinearMap.mem_ker] at hc
  have key : ∀ m, (if m < n then (U *ᵥ c) m else if n < m then c m else 0) = 0 := fun m => congrFun hc m
  refine ⟨c, hc0, fun m hm => ?_, fun m hm => ?_⟩
  · have := key m
    rwa [if_neg (not_lt.2 hm.le), if_pos hm] at this
  · have := key m
    rwa [if_pos hm] at this

/-- Weyl's inequality, one side. -/
theorem weyl_le (A B : Matrix (Fin d) (Fin d) ℂ) (v w : Fin d → ℝ) (V W : Fin d → Fin d → ℂ) (hv : Eigenpairs A (fun n => (v n : ℂ)) V)
    (hV : OrthoCols V) (mv : Monotone v) (hw : Eigenpairs B (fun n => (w n : ℂ)) W) (hW : OrthoCols W) (mw : Monotone w) {δ : ℝ}
    (h : ∀ x : Fin d → ℂ, ‖star x ⬝ᵥ ((A - B) *ᵥ x)‖ ≤ δ * ∑ a, ‖x a‖ ^ 2) (n : Fin d) : v n ≤ w n + δ := by
  have hUV : (Matrix.of V)ᴴ * Matrix.of V = 1 := by
    ext m n
    rw [Matrix.mul_apply, Matrix.one_apply]
    exact hV m n
  have hVU : Matrix.of V * (Matrix.of V)ᴴ = 1 := mul_eq_one_comm.1 hUV
  obtain ⟨c, hc, hhi, hlo⟩ := exists_combination ((Matrix.of V)ᴴ * Matrix.of W) n
  set y := ((Matrix.of V)ᴴ * Matrix.of W) *ᵥ c with hy
  set x := (Matrix.of W) *ᵥ c with hx
  have hxy : (Matrix.of V) *ᵥ y = x := by
    rw [hy, Matrix.mulVec_mulVec, ← Matrix.mul_assoc, hVU, Matrix.one_mul]
  have hA := expectation A v V hv hV y
  have hB := expectation B w W hw hW c
  rw [hxy] at hA
  rw [← hx] at hB
  have nx : ∑ a, ‖x a‖ ^ 2 = ∑ n, ‖c n‖ ^ 2 := norm_vec W hW c
  have ny : ∑ a, ‖x a‖ ^ 2 = ∑ n, ‖y n‖ ^ 2 := by
    rw [← hxy]
    exact norm_vec V hV y
  have hpos : 0 < ∑ a, ‖x a‖ ^ 2 := by
    rw [nx]
    obtain ⟨m, hm⟩ := Function.ne_iff.1 hc
    exact Finset.sum_pos' (fun _ _ => sq_nonneg _) ⟨m, Finset.mem_univ m, pow_pos (norm_pos_iff.2 hm) 2⟩
  have h1 : v n * ∑ a, ‖x a‖ ^ 2 ≤ ∑ m, v m * ‖y m‖ ^ 2 := by
    rw [ny, Finset.mul_sum]
    refine Finset.sum_le_sum fun m _ => ?_
    rcases lt_or_ge m n with hm | hm
    · rw [hlo m hm]
      simp
    · exact mul_le_mul_of_nonneg_right (mv hm) (sq_nonneg _)
  have h2 : ∑ m, w m * ‖c m‖ ^ 2 ≤ w n * ∑ a, ‖x a‖ ^ 2 := by
    rw [nx, Finset.mul_sum]
    refine Finset.sum_le_sum fun m _ => ?_
    rcases lt_or_ge n m with hm | hm
    · rw [hhi m hm]
      simp
    · exact mul_le_mul_of_nonneg_right (mw hm) (sq_nonneg _)
  have h3 := h x
  rw [Matrix.sub_mulVec, dotProduct_sub, hA, hB, ← Complex.ofReal_sub, Complex.norm_real, Real.norm_eq_abs] at h3
  have h4 := (le_abs_self _).trans h3
  have h5 : v n * ∑ a, ‖x a‖ ^ 2 ≤ (w n + δ) * ∑ a, ‖x a‖ ^ 2 := by linarith
  exact le_of_mul_le_mul_right h5 hpos

theorem form_bound (E : Matrix (Fin d) (Fin d) ℂ) {ε : ℝ} (h : ∀ a b, ‖E a b‖ ≤ ε) (hε : 0 ≤ ε) (x : Fin d → ℂ) :
    ‖star x ⬝ᵥ (E *ᵥ x)‖ ≤ d * ε * ∑ a, ‖x a‖ ^ 2 := by
  have h1 : ‖star x ⬝ᵥ (E *ᵥ x)‖ ≤ ε * (∑ a, ‖x a‖) ^ 2 := by
    simp only [dotProduct, Matrix.mulVec, Pi.star_apply]
    refine (norm_sum_le _ _).trans ?_
    rw [sq, Finset.sum_mul, Finset.mul_sum]
    refine Finset.sum_le_sum fun a _ => ?_
    rw [norm_mul, norm_star, Finset.mul_sum, Finset.mul_sum]
    calc ‖x a‖ * ‖∑ b, E a b * x b‖ ≤ ‖x a‖ * ∑ b, ε * ‖x b‖ := by
          refine mul_le_mul_of_nonneg_left ?_ (norm_nonneg _)
          refine (norm_sum_le _ _).trans (Finset.sum_le_sum fun b _ => ?_)
          rw [norm_mul]
          exact mul_le_mul_of_nonneg_right (h a b) (norm_nonneg _)
      _ = ∑ b, ε * (‖x a‖ * ‖x b‖) := by
          rw [Finset.mul_sum]
          exact Finset.sum_congr rfl fun b _ => by ring
  have h2 := sq_sum_le_card_mul_sum_sq (s := (Finset.univ : Finset (Fin d))) (f := fun a => ‖x a‖)
  rw [Finset.card_univ, Fintype.card_fin] at h2
  calc _ ≤ ε * (∑ a, ‖x a‖) ^ 2 := h1
    _ ≤ ε * (d * ∑ a, ‖x a‖ ^ 2) := mul_le_mul_of_nonneg_left h2 hε
    _ = _ := by ring

/-- **C174**: if the elements of two matrices differ by no more than `ε`, the eigenvalues returned for them differ by no more than `d ε`. -/
theorem C174_matrix (A B : Matrix (Fin d) (Fin d) ℂ) (v w : Fin d → ℝ) (hv : Spectrum A v) (hw : Spectrum B w) {ε : ℝ}
    (h : ∀ a b, ‖A a b - B a b‖ ≤ ε) (n : Fin d) : |v n - w n| ≤ d * ε := by
  have hε : 0 ≤ ε := (norm_nonneg _).trans (h n n)
  obtain ⟨mv, V, ev, hV⟩ := hv
  obtain ⟨mw, W, ew, hW⟩ := hw
  have h1 := weyl_le (lower A) (lower B) v w V W ev hV mv ew hW mw
    (form_bound (lower A - lower B) (fun a b => by rw [Matrix.sub_apply]; exact lower_close A B h a b) hε) n
  have h2 := weyl_le (lower B) (lower A) w v W V ew hW mw ev hV mv
    (form_bound (lower B - lower A) (fun a b => by rw [Matrix.sub_apply, norm_sub_rev]; exact lower_close A B h a b) hε) n
  rw [abs_le]
  constructor <;> linarith

/-- The eigenvalues determined by `dispersion` (without LAPACK for one band). -/
theorem values_spectrum (eigvalsh : Matrix (Fin d) (Fin d) ℂ → Fin d → ℝ) (A : Matrix (Fin d) (Fin d) ℂ) (h : Spectrum A (eigvalsh A)) :
    Spectrum A (valuesHermitian eigvalsh A) := by
  unfold valuesHermitian
  split
  · rename_i hd
    subst hd
    refine ⟨fun a b _ => by rw [Subsingleton.elim a b], fun _ _ => 1, fun n x => ?_, fun m n => ?_⟩
    · have hx := Subsingleton.elim x n
      subst hx
      simp [lower]
    · have hx := Subsingleton.elim m n
      subst hx
      simp
  · exact h

end Verif.Bands
