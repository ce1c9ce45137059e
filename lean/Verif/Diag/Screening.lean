import Mathlib.LinearAlgebra.Matrix.PosDef
import Mathlib.LinearAlgebra.Matrix.SchurComplement
import Verif.Diag.Orbital

/-!
# Screening in two steps, `elphmod/diagrams.py` 147-260, 613-763 (C168)

In constrained theories, a target subspace of bands is excluded from the screening (`polarization` with `subspace`). Screening by the target subspace
is added later (`renormalize_coupling_band` with `nbnd_sub`, `phonon_self_energy` for these bands with one partially and one fully screened coupling).
-/

namespace Verif.Diag.Screening

open Matrix
open scoped ComplexOrder

/-! ### Model -/

section model
variable {n1 n2 n3 nb : Nat} [NeZero n1] [NeZero n2] [NeZero n3]

/-- `elphmod/diagrams.py` 733-748 (`renormalize_coupling_band`) for density-density interactions with `nbnd_sub` bands in the bubble. -/
noncomputable def renormBandSub {A : Type} [Fintype A] {ns : Nat} (hs : ns ≤ nb) (w : Mesh n1 n2 n3 → Fin nb → Fin nb → ℂ)
    (U : Mesh n1 n2 n3 → A → Fin nb → ℂ) (q : Nat × Nat × Nat) (W : A → A → ℂ)
    (g : Mesh n1 n2 n3 → Fin nb → Fin nb → ℂ) (k : Mesh n1 n2 n3) (m n : Fin nb) : ℂ :=
  let Pig := fun c => 2 / (n1 * n2 * n3 : Nat) * ∑ k, ∑ m : Fin ns, ∑ n : Fin ns, slice U q k c (m.castLE hs) * star (U k c (n.castLE hs)) *
    w k (m.castLE hs) (n.castLE hs) * g k (m.castLE hs) (n.castLE hs)
  g k m n + ∑ a, ∑ c, star (slice U q k a m) * U k a n * W a c * Pig c

end model

/-! ### Linear algebra -/

section algebra
variable {T A X : Type} [Fintype T] [DecidableEq T] [Fintype A] [DecidableEq A] [Fintype X]

/-- Specification: `W` is the interaction `v` screened by the polarization `P`. -/
def Screens (v P W : Matrix A A ℂ) : Prop := W = v + v * P * W

theorem psd_form {M : Matrix T T ℂ} (h : M.PosSemidef) (x : T → ℂ) : 0 ≤ (star x ⬝ᵥ M *ᵥ x).re :=
  (Complex.le_def.1 (h.dotProduct_mulVec_nonneg x)).1

theorem unit_of_psd (M : Matrix T T ℂ) (h : M.PosSemidef) : IsUnit (1 + M).det := by
  rw [isUnit_iff_ne_zero]
  intro h0
  obtain ⟨x, hx, hM⟩ := exists_mulVec_eq_zero_iff.2 h0
  rw [add_mulVec, one_mulVec] at hM
  have h1 : star x ⬝ᵥ x + star x ⬝ᵥ M *ᵥ x = 0 := by
    rw [← dotProduct_add, hM, dotProduct_zero]
  have h2 := congrArg Complex.re h1
  rw [Complex.add_re, Complex.zero_re] at h2
  have h3 := psd_form h x
  have h4 : (star x ⬝ᵥ x).re = ∑ i, ‖x i‖ ^ 2 := by
    simp only [dotProduct, Pi.star_apply, Complex.re_sum]
    refine Finset.sum_congr rfl fun i _ => ?_
    rw [show star (x i) * x i = (starRingEnd ℂ) (x i) * x i from rfl, Complex.conj_mul']
    norm_cast
  apply hx
  funext i
  have h5 : ∑ i, ‖x i‖ ^ 2 = 0 := le_antisymm (by linarith) (Finset.sum_nonneg fun i _ => sq_nonneg _)
  have h6 := (Finset.sum_eq_zero_iff_of_nonneg fun i _ => sq_nonneg _).1 h5 i (Finset.mem_univ i)
  simpa using h6

/-- Polarization in the basis of orbitals for the weights `s` of all transitions. -/
noncomputable def pol (ρ : Matrix T A ℂ) (s : T → ℝ) : Matrix A A ℂ := ρᴴ * diagonal (fun t => (s t : ℂ)) * ρ

theorem pol_neg (ρ : Matrix T A ℂ) (s : T → ℝ) : pol ρ s = -pol ρ fun t => -s t := by
  unfold pol
  have : diagonal (fun t => ((-s t : ℝ) : ℂ)) = -diagonal fun t => (s t : ℂ) := by
    rw [diagonal_neg]
    congr 1
    funext t
    exact Complex.ofReal_neg _
  rw [this, Matrix.mul_neg, Matrix.neg_mul, neg_neg]

theorem diag_psd (s : T → ℝ) (hs : ∀ t, 0 ≤ s t) : (diagonal fun t => (s t : ℂ)).PosSemidef :=
  PosSemidef.diagonal fun t => by simpa using hs t

theorem diag_herm (s : T → ℝ) : (diagonal fun t => (s t : ℂ))ᴴ = diagonal fun t => (s t : ℂ) := by
  rw [diagonal_conjTranspose]
  congr 1
  funext t
  exact Complex.conj_ofReal _

theorem pol_psd (ρ : Matrix T A ℂ) (s : T → ℝ) (hs : ∀ t, 0 ≤ s t) : (pol ρ s).PosSemidef :=
  (diag_psd s hs).conjTranspose_mul_mul_same ρ

theorem pol_herm (ρ : Matrix T A ℂ) (s : T → ℝ) : (pol ρ s)ᴴ = pol ρ s := by
  unfold pol
  rw [conjTranspose_mul, conjTranspose_mul, diag_herm, conjTranspose_conjTranspose, Matrix.mul_assoc]

theorem pol_add (ρ : Matrix T A ℂ) (s s' : T → ℝ) : pol ρ (fun t => s t + s' t) = pol ρ s + pol ρ s' := by
  unfold pol
  rw [← Matrix.add_mul, ← Matrix.mul_add, diagonal_add]
  push_cast
  rfl

/-- Nonnegative polarizations (with opposite sign) never lead to divergences. -/
theorem unit_screen (v : Matrix A A ℂ) (hv : v.PosSemidef) (ρ : Matrix T A ℂ) (s : T → ℝ) (hs : ∀ t, 0 ≤ s t) :
    IsUnit (1 + v * pol ρ s).det ∧ IsUnit (1 + pol ρ s * v).det := by
  set R : Matrix T A ℂ := diagonal (fun t => ((Real.sqrt (s t) : ℝ) : ℂ)) * ρ with hR
  have hRR : pol ρ s = Rᴴ * R := by
    rw [hR, conjTranspose_mul, diag_herm]
    unfold pol
    rw [Matrix.mul_assoc, Matrix.mul_assoc, ← Matrix.mul_assoc (diagonal _) (diagonal _), diagonal_mul_diagonal]
    congr 3
    funext t
    rw [← Complex.ofReal_mul, Real.mul_self_sqrt (hs t)]
  have hM : (R * v * Rᴴ).PosSemidef := hv.mul_mul_conjTranspose_same R
  have hu := unit_of_psd _ hM
  constructor
  · rw [hRR, ← Matrix.mul_assoc, det_one_add_mul_comm, ← Matrix.mul_assoc]
    exact hu
  · rw [hRR, Matrix.mul_assoc, det_one_add_mul_comm]
    exact hu

/-- Screened interaction and related expressions for nonnegative `S`. -/
theorem screened (v S : Matrix A A ℂ) (hv : v.PosSemidef) (hS : S.PosSemidef) (hu : IsUnit (1 + v * S).det) (hu' : IsUnit (1 + S * v).det) :
    Screens v (-S) (v * (1 + S * v)⁻¹) ∧ ∀ W, Screens v (-S) W → W = v * (1 + S * v)⁻¹ ∧ W.PosSemidef ∧ (v - W).PosSemidef ∧
      (W - W * S * W).PosSemidef := by
  set K := (1 + S * v)⁻¹ with hK
  have hvH : vᴴ = v := hv.1
  have hSH : Sᴴ = S := hS.1
  have k1 : K + S * v * K = 1 := by
    have := mul_nonsing_inv _ hu'
    rwa [Matrix.add_mul, Matrix.one_mul] at this
  have k2 : Kᴴ + Kᴴ * v * S = 1 := by
    have := congrArg conjTranspose k1
    rw [conjTranspose_add, conjTranspose_mul, conjTranspose_mul, hvH, hSH, conjTranspose_one, ← Matrix.mul_assoc] at this
    exact this
  have k3 : v * K + v * S * v * K = v := by
    have := congrArg (v * ·) k1
    simp only [Matrix.mul_add, Matrix.mul_one, ← Matrix.mul_assoc] at this
    exact this
  have k4 : v * K = Kᴴ * v := by
    have h1 : (Kᴴ + Kᴴ * v * S) * (v * K) = Kᴴ * (v * K + v * S * v * K) := by
      simp only [Matrix.mul_add, Matrix.add_mul, ← Matrix.mul_assoc]
    rw [k2, k3, Matrix.one_mul] at h1
    exact h1
  have k0 : Screens v (-S) (v * K) := by
    unfold Screens
    have : v * -S * (v * K) = -(v * S * v * K) := by
      simp only [Matrix.mul_neg, Matrix.neg_mul, ← Matrix.mul_assoc]
    rw [this]
    exact eq_add_neg_of_add_eq k3
  refine ⟨k0, fun W hW => ?_⟩
  have hWK : W = v * K := by
    have h1 : (1 + v * S) * W = v := by
      unfold Screens at hW
      rw [Matrix.add_mul, Matrix.one_mul]
      have : v * -S * W = -(v * S * W) := by rw [Matrix.mul_neg, Matrix.neg_mul]
      rw [this] at hW
      exact (eq_add_neg_iff_add_eq.1 hW)
    have h2 : (1 + v * S) * (v * K) = v := by
      rw [Matrix.add_mul, Matrix.one_mul]
      simp only [← Matrix.mul_assoc]
      exact k3
    have h3 := congrArg ((1 + v * S)⁻¹ * ·) (h1.trans h2.symm)
    simp only [← Matrix.mul_assoc, nonsing_inv_mul _ hu, Matrix.one_mul] at h3
    exact h3
  have p1 : v * K = Kᴴ * (v + v * S * v) * K := by
    have : Kᴴ * (v + v * S * v) * K = (Kᴴ + Kᴴ * v * S) * v * K := by
      simp only [Matrix.mul_add, Matrix.add_mul, ← Matrix.mul_assoc]
    rw [this, k2, Matrix.one_mul]
  have p2 : v - v * K = Kᴴ * (v * S * v + v * S * v * S * v) * K := by
    have : Kᴴ * (v * S * v + v * S * v * S * v) * K = (Kᴴ + Kᴴ * v * S) * v * S * v * K := by
      simp only [Matrix.mul_add, Matrix.add_mul, ← Matrix.mul_assoc]
    rw [this, k2, Matrix.one_mul]
    exact sub_eq_of_eq_add' k3.symm
  have p3 : v * K - v * K * S * (v * K) = Kᴴ * v * K := by
    rw [← k4]
    have := congrArg (v * K * ·) k1
    simp only [Matrix.mul_add, Matrix.mul_one, ← Matrix.mul_assoc] at this ⊢
    exact sub_eq_of_eq_add this.symm
  have q1 : (v * S * v).PosSemidef := by
    have := hS.conjTranspose_mul_mul_same v
    rwa [hvH] at this
  have q2 : (v * S * v * S * v).PosSemidef := by
    have := hv.conjTranspose_mul_mul_same (S * v)
    rw [conjTranspose_mul, hvH, hSH] at this
    simpa only [Matrix.mul_assoc] using this
  subst hWK
  refine ⟨rfl, ?_, ?_, ?_⟩
  · rw [p1]
    exact (hv.add q1).conjTranspose_mul_mul_same K
  · rw [p2]
    exact (q1.add q2).conjTranspose_mul_mul_same K
  · rw [p3]
    exact hv.conjTranspose_mul_mul_same K

/-- Dyson equation for screening in two steps. -/
theorem dyson (v P P' Wr W : Matrix A A ℂ) (hu : IsUnit (1 - v * P).det) (hr : Screens v P Wr) (h : Screens v (P + P') W) : Screens Wr P' W := by
  have h1 : (1 - v * P) * Wr = v := by
    rw [Matrix.sub_mul, Matrix.one_mul]
    exact sub_eq_of_eq_add hr
  have h2 : (1 - v * P) * W = (1 - v * P) * (Wr + Wr * P' * W) := by
    rw [Matrix.mul_add, ← Matrix.mul_assoc, ← Matrix.mul_assoc, h1, Matrix.sub_mul, Matrix.one_mul]
    refine sub_eq_of_eq_add ?_
    unfold Screens at h
    rw [Matrix.mul_add, Matrix.add_mul, ← add_assoc] at h
    conv_lhs => rw [h]
    abel
  have h3 := congrArg ((1 - v * P)⁻¹ * ·) h2
  simp only [← Matrix.mul_assoc, nonsing_inv_mul _ hu, Matrix.one_mul] at h3
  exact h3

/-- Coupling screened by the transitions with weights `s`. -/
noncomputable def dress (ρ : Matrix T A ℂ) (s : T → ℝ) (W : Matrix A A ℂ) (g : Matrix T X ℂ) : Matrix T X ℂ :=
  g + ρ * W * (ρᴴ * diagonal (fun t => (s t : ℂ)) * g)

/-- Phonon self-energy for the transitions with weights `s`. -/
noncomputable def self (s : T → ℝ) (g G : Matrix T X ℂ) : Matrix X X ℂ := gᴴ * diagonal (fun t => (s t : ℂ)) * G

theorem diag_add (s s' : T → ℝ) : (diagonal fun t => ((s t + s' t : ℝ) : ℂ)) = (diagonal fun t => (s t : ℂ)) + diagonal fun t => (s' t : ℂ) := by
  rw [diagonal_add]
  congr 1
  funext t
  exact Complex.ofReal_add _ _

/-- Two steps of screening of the coupling. -/
theorem dress_dress (ρ : Matrix T A ℂ) (s s' : T → ℝ) (Wr W : Matrix A A ℂ) (h : W = Wr + W * pol ρ s' * Wr) (g : Matrix T X ℂ) :
    dress ρ s' W (dress ρ s Wr g) = dress ρ (fun t => s t + s' t) W g := by
  unfold dress
  rw [diag_add]
  have e : ρ * W * (ρᴴ * diagonal (fun t => (s' t : ℂ)) * (g + ρ * Wr * (ρᴴ * diagonal (fun t => (s t : ℂ)) * g))) =
      ρ * W * (ρᴴ * diagonal (fun t => (s' t : ℂ)) * g) + ρ * (W * pol ρ s' * Wr) * (ρᴴ * diagonal (fun t => (s t : ℂ)) * g) := by
    unfold pol
    simp only [Matrix.mul_add, Matrix.mul_assoc]
  rw [e]
  have e2 : ρ * W * (ρᴴ * (diagonal (fun t => (s t : ℂ)) + diagonal fun t => (s' t : ℂ)) * g) =
      ρ * W * (ρᴴ * diagonal (fun t => (s t : ℂ)) * g) + ρ * W * (ρᴴ * diagonal (fun t => (s' t : ℂ)) * g) := by
    simp only [Matrix.mul_add, Matrix.add_mul]
  rw [e2]
  have e3 : ρ * W * (ρᴴ * diagonal (fun t => (s t : ℂ)) * g) = ρ * Wr * (ρᴴ * diagonal (fun t => (s t : ℂ)) * g) +
      ρ * (W * pol ρ s' * Wr) * (ρᴴ * diagonal (fun t => (s t : ℂ)) * g) := by
    conv_lhs => rw [h]
    simp only [Matrix.mul_add, Matrix.add_mul]
  rw [e3]
  abel

theorem self_dress (ρ : Matrix T A ℂ) (s : T → ℝ) (W : Matrix A A ℂ) (g : Matrix T X ℂ) :
    self s g (dress ρ s W g) = self s g g + (ρᴴ * diagonal (fun t => (s t : ℂ)) * g)ᴴ * W * (ρᴴ * diagonal (fun t => (s t : ℂ)) * g) := by
  unfold self dress
  rw [conjTranspose_mul, conjTranspose_mul, diag_herm, conjTranspose_conjTranspose]
  simp only [Matrix.mul_add, Matrix.mul_assoc]

theorem self_herm (s : T → ℝ) (g G : Matrix T X ℂ) : (self s g G)ᴴ = self s G g := by
  unfold self
  rw [conjTranspose_mul, conjTranspose_mul, diag_herm, conjTranspose_conjTranspose, Matrix.mul_assoc]

/-- The self-energy with one screened coupling is Hermitian. -/
theorem self_dress_herm (ρ : Matrix T A ℂ) (s : T → ℝ) (W : Matrix A A ℂ) (hW : Wᴴ = W) (g : Matrix T X ℂ) :
    (self s g (dress ρ s W g))ᴴ = self s g (dress ρ s W g) := by
  rw [self_dress, conjTranspose_add, self_herm]
  generalize ρᴴ * diagonal (fun t => (s t : ℂ)) * g = P
  rw [conjTranspose_mul, conjTranspose_mul, hW, conjTranspose_conjTranspose, Matrix.mul_assoc]

/-- Two steps of renormalization of phonons. -/
theorem self_self (ρ : Matrix T A ℂ) (s s' : T → ℝ) (Wr W : Matrix A A ℂ) (h : W = Wr + W * pol ρ s' * Wr) (h' : W = Wr + Wr * pol ρ s' * W)
    (hr : Wrᴴ = Wr) (g : Matrix T X ℂ) :
    self (fun t => s t + s' t) g (dress ρ (fun t => s t + s' t) W g) =
      self s g (dress ρ s Wr g) + self s' (dress ρ s Wr g) (dress ρ (fun t => s t + s' t) W g) := by
  rw [← dress_dress ρ s s' Wr W h g]
  set gr := dress ρ s Wr g with hgr
  set P := ρᴴ * diagonal (fun t => (s t : ℂ)) * g with hP
  set Q := ρᴴ * diagonal (fun t => (s' t : ℂ)) * gr with hQ
  have hgr' : gr = g + ρ * Wr * P := rfl
  have hG : dress ρ s' W gr = gr + ρ * W * Q := rfl
  have hPH : Pᴴ = gᴴ * diagonal (fun t => (s t : ℂ)) * ρ := by
    rw [hP, conjTranspose_mul, conjTranspose_mul, diag_herm, conjTranspose_conjTranspose, Matrix.mul_assoc]
  have e1 : self (fun t => s t + s' t) g (dress ρ s' W gr) = self s g gr + Pᴴ * W * Q + self s' g (dress ρ s' W gr) := by
    unfold self
    rw [diag_add, Matrix.mul_add, Matrix.add_mul]
    congr 1
    rw [hG, Matrix.mul_add, hPH]
    simp only [Matrix.mul_assoc]
  have e2 : self s' gr (dress ρ s' W gr) = self s' g (dress ρ s' W gr) + Pᴴ * Wr * (ρᴴ * diagonal (fun t => (s' t : ℂ)) * dress ρ s' W gr) := by
    generalize dress ρ s' W gr = G
    rw [hgr']
    generalize P = P
    unfold self
    rw [conjTranspose_add, Matrix.add_mul, Matrix.add_mul, conjTranspose_mul, conjTranspose_mul, hr]
    simp only [Matrix.mul_assoc]
  have e3 : Pᴴ * Wr * (ρᴴ * diagonal (fun t => (s' t : ℂ)) * dress ρ s' W gr) = Pᴴ * W * Q := by
    have : ρᴴ * diagonal (fun t => (s' t : ℂ)) * dress ρ s' W gr = Q + pol ρ s' * W * Q := by
      rw [hG, Matrix.mul_add, ← hQ]
      unfold pol
      simp only [Matrix.mul_assoc]
    rw [this]
    conv_rhs => rw [h']
    simp only [Matrix.mul_add, Matrix.add_mul, Matrix.mul_assoc]
  rw [e1, e2, e3]
  abel

/-- Screening reduces the renormalization of the phonons but never changes its sign. -/
theorem self_bounds (ρ : Matrix T A ℂ) (s : T → ℝ) (hs : ∀ t, s t ≤ 0) (W : Matrix A A ℂ) (hW : W.PosSemidef)
    (hW' : (W - W * (pol ρ fun t => -s t) * W).PosSemidef) (g : Matrix T X ℂ) :
    (-self s g (dress ρ s W g)).PosSemidef ∧ (self s g (dress ρ s W g) - self s g g).PosSemidef := by
  rw [self_dress, add_sub_cancel_left]
  set P := ρᴴ * diagonal (fun t => (s t : ℂ)) * g with hP
  constructor
  · have hD : diagonal (fun t => ((-s t : ℝ) : ℂ)) = -diagonal fun t => (s t : ℂ) := by
      rw [diagonal_neg]
      congr 1
      funext t
      exact Complex.ofReal_neg _
    have hPH : Pᴴ = gᴴ * diagonal (fun t => (s t : ℂ)) * ρ := by
      rw [hP, conjTranspose_mul, conjTranspose_mul, diag_herm, conjTranspose_conjTranspose, Matrix.mul_assoc]
    have hWH : Wᴴ = W := hW.1
    have q1 := (diag_psd (fun t => -s t) fun t => neg_nonneg.2 (hs t)).conjTranspose_mul_mul_same (g + ρ * (W * P))
    have q2 := hW'.conjTranspose_mul_mul_same P
    have e : -(self s g g + Pᴴ * W * P) = (g + ρ * (W * P))ᴴ * diagonal (fun t => ((-s t : ℝ) : ℂ)) * (g + ρ * (W * P)) +
        Pᴴ * (W - W * (pol ρ fun t => -s t) * W) * P := by
      have e1 : (g + ρ * (W * P))ᴴ * diagonal (fun t => ((-s t : ℝ) : ℂ)) * (g + ρ * (W * P)) =
          -self s g g - Pᴴ * W * P - Pᴴ * W * P + Pᴴ * W * (pol ρ fun t => -s t) * W * P := by
        have a1 : self s g (ρ * (W * P)) = Pᴴ * W * P := by
          unfold self
          rw [hPH]
          simp only [Matrix.mul_assoc]
        have a2 : self s (ρ * (W * P)) g = Pᴴ * W * P := by
          unfold self
          rw [conjTranspose_mul, conjTranspose_mul, hWH, Matrix.mul_assoc, Matrix.mul_assoc, Matrix.mul_assoc]
          conv_rhs => rw [hP]
          simp only [Matrix.mul_assoc]
          rw [hP]
          simp only [Matrix.mul_assoc]
        have a3 : self s (ρ * (W * P)) (ρ * (W * P)) = -(Pᴴ * W * (pol ρ fun t => -s t) * W * P) := by
          have : (pol ρ fun t => -s t) = -pol ρ s := by rw [pol_neg ρ s, neg_neg]
          rw [this]
          unfold self pol
          rw [conjTranspose_mul, conjTranspose_mul, hWH]
          simp only [Matrix.mul_assoc, Matrix.mul_neg, Matrix.neg_mul, neg_neg]
        have a4 : (g + ρ * (W * P))ᴴ * diagonal (fun t => ((-s t : ℝ) : ℂ)) * (g + ρ * (W * P)) = -(self s g g + self s g (ρ * (W * P)) +
            self s (ρ * (W * P)) g + self s (ρ * (W * P)) (ρ * (W * P))) := by
          unfold self
          rw [hD, conjTranspose_add]
          simp only [Matrix.mul_add, Matrix.add_mul, Matrix.mul_neg, Matrix.neg_mul, neg_add]
          abel
        rw [a4, a1, a2, a3]
        abel
      rw [e1, Matrix.mul_sub, Matrix.sub_mul]
      simp only [← Matrix.mul_assoc]
      abel
    rw [e]
    exact q1.add q2
  · exact hW.conjTranspose_mul_mul_same P

end algebra

/-! ### Specification -/

section spec
variable {n1 n2 n3 nb : Nat} [NeZero n1] [NeZero n2] [NeZero n3]

/-- Specification: mask for the target subspace of the first `ns` bands. -/
def firstBands (ns : Nat) (_ : Mesh n1 n2 n3) (n : Fin nb) : Bool := decide ((n : Nat) < ns)

/-- Specification: coupling screened by all transitions except for those within the first `ns` bands, for given interaction and weights. -/
noncomputable def restCoupling {A X : Type} [Fintype A] (ns : Nat) (w : Mesh n1 n2 n3 → Fin nb → Fin nb → ℂ) (U : Mesh n1 n2 n3 → A → Fin nb → ℂ)
    (q : Nat × Nat × Nat) (W : A → A → ℂ) (g : Cpl n1 n2 n3 nb X) : Cpl n1 n2 n3 nb X := fun x k m n =>
  g x k m n + ∑ a, ∑ c, star (slice U q k a m) * U k a n * W a c * (2 / (n1 * n2 * n3 : Nat) * ∑ k', ∑ m' : Fin nb, ∑ n' : Fin nb,
    if (m' : Nat) < ns ∧ (n' : Nat) < ns then 0 else slice U q k' c m' * star (U k' c n') * w k' m' n' * g x k' m' n')

/-- Specification: coupling for the first `ns` bands. -/
def cut {X : Type} {ns : Nat} (hs : ns ≤ nb) (g : Cpl n1 n2 n3 nb X) : Cpl n1 n2 n3 ns X := fun x k m n => g x k (m.castLE hs) (n.castLE hs)

/-- Specification: energies of the first `ns` bands. -/
def cutE {ns : Nat} (hs : ns ≤ nb) (e : Mesh n1 n2 n3 → Fin nb → ℝ) : Mesh n1 n2 n3 → Fin ns → ℝ := fun k n => e k (n.castLE hs)

end spec

/-! ### Results -/

section results
variable {n1 n2 n3 nb : Nat} [NeZero n1] [NeZero n2] [NeZero n3]

theorem sum_castLE {M : Type} [AddCommMonoid M] {ns : Nat} (hs : ns ≤ nb) (f : Fin nb → M) :
    ∑ m : Fin nb, (if (m : Nat) < ns then f m else 0) = ∑ m : Fin ns, f (m.castLE hs) := by
  obtain ⟨r, rfl⟩ := Nat.exists_eq_add_of_le hs
  rw [Fin.sum_univ_add]
  have h1 : ∀ i : Fin ns, (if ((Fin.castAdd r i : Fin (ns + r)) : Nat) < ns then f (Fin.castAdd r i) else 0) = f (i.castLE hs) := by
    intro i
    rw [if_pos (by simp)]
    rfl
  have h2 : ∀ i : Fin r, (if ((Fin.natAdd ns i : Fin (ns + r)) : Nat) < ns then f (Fin.natAdd ns i) else 0) = 0 := by
    intro i
    rw [if_neg (by simp)]
  simp only [h1, h2, Finset.sum_const_zero, add_zero]

/-- Transitions. -/
abbrev Tr (n1 n2 n3 nb : Nat) := Mesh n1 n2 n3 × Fin nb × Fin nb

/-- Density vertex. -/
noncomputable def vertex {A : Type} (U : Mesh n1 n2 n3 → A → Fin nb → ℂ) (q : Nat × Nat × Nat) : Matrix (Tr n1 n2 n3 nb) A ℂ :=
  of fun t a => star (slice U q t.1 a t.2.1) * U t.1 a t.2.2

/-- Coupling as a matrix. -/
def mat {X : Type} (g : Cpl n1 n2 n3 nb X) : Matrix (Tr n1 n2 n3 nb) X ℂ := of fun t x => g x t.1 t.2.1 t.2.2

/-- Weights of transitions. -/
noncomputable def weight (w : Mesh n1 n2 n3 → Fin nb → Fin nb → ℝ) (t : Tr n1 n2 n3 nb) : ℝ := 2 / ((n1 * n2 * n3 : Nat) : ℝ) * w t.1 t.2.1 t.2.2

theorem sum_tr {M : Type} [AddCommMonoid M] (f : Tr n1 n2 n3 nb → M) : ∑ t, f t = ∑ k, ∑ m, ∑ n, f (k, m, n) := by
  rw [Fintype.sum_prod_type]
  exact Finset.sum_congr rfl fun k _ => Fintype.sum_prod_type _

theorem weight_cast (w : Mesh n1 n2 n3 → Fin nb → Fin nb → ℝ) (t : Tr n1 n2 n3 nb) :
    (weight w t : ℂ) = 2 / ((n1 * n2 * n3 : Nat) : ℂ) * (w t.1 t.2.1 t.2.2 : ℂ) := by
  unfold weight
  rw [Complex.ofReal_mul, Complex.ofReal_div, Complex.ofReal_natCast, Complex.ofReal_ofNat]

/-- Joined bubble and coupling. -/
theorem joined {A X : Type} (U : Mesh n1 n2 n3 → A → Fin nb → ℂ) (q : Nat × Nat × Nat) (w : Mesh n1 n2 n3 → Fin nb → Fin nb → ℝ)
    (g : Cpl n1 n2 n3 nb X) (c : A) (x : X) :
    ((vertex U q)ᴴ * diagonal (fun t => (weight w t : ℂ)) * mat g) c x =
      2 / ((n1 * n2 * n3 : Nat) : ℂ) * ∑ k, ∑ m, ∑ n, slice U q k c m * star (U k c n) * (w k m n : ℂ) * g x k m n := by
  rw [Matrix.mul_apply, sum_tr]
  simp only [Finset.mul_sum]
  refine Finset.sum_congr rfl fun k _ => Finset.sum_congr rfl fun m _ => Finset.sum_congr rfl fun n _ => ?_
  rw [mul_diagonal, weight_cast]
  simp only [conjTranspose_apply, vertex, mat, of_apply, star_mul', star_star]
  ring

theorem dress_apply {A X : Type} [Fintype A] (U : Mesh n1 n2 n3 → A → Fin nb → ℂ) (q : Nat × Nat × Nat) (w : Mesh n1 n2 n3 → Fin nb → Fin nb → ℝ)
    (W : Matrix A A ℂ) (g : Cpl n1 n2 n3 nb X) (x : X) (k : Mesh n1 n2 n3) (m n : Fin nb) :
    dress (vertex U q) (weight w) W (mat g) (k, m, n) x = g x k m n + ∑ a, ∑ c, star (slice U q k a m) * U k a n * W a c *
      (2 / ((n1 * n2 * n3 : Nat) : ℂ) * ∑ k, ∑ m, ∑ n, slice U q k c m * star (U k c n) * (w k m n : ℂ) * g x k m n) := by
  unfold dress
  rw [Matrix.add_apply, Matrix.mul_apply]
  simp only [joined]
  simp only [Matrix.mul_apply, Finset.sum_mul]
  rw [Finset.sum_comm]
  rfl

/-- Weights of the transitions within the target subspace. -/
noncomputable def inside (ns : Nat) (w : Mesh n1 n2 n3 → Fin nb → Fin nb → ℝ) (k : Mesh n1 n2 n3) (m n : Fin nb) : ℝ :=
  if (m : Nat) < ns ∧ (n : Nat) < ns then w k m n else 0

theorem inside_sum {ns : Nat} (hs : ns ≤ nb) (f : Fin nb → Fin nb → ℂ) :
    ∑ m : Fin nb, ∑ n : Fin nb, (if (m : Nat) < ns ∧ (n : Nat) < ns then f m n else 0) = ∑ m : Fin ns, ∑ n : Fin ns, f (m.castLE hs) (n.castLE hs) := by
  rw [← sum_castLE hs fun m => ∑ n : Fin ns, f m (n.castLE hs)]
  refine Finset.sum_congr rfl fun m _ => ?_
  by_cases h : (m : Nat) < ns
  · rw [if_pos h, ← sum_castLE hs fun n => f m n]
    exact Finset.sum_congr rfl fun n _ => by simp only [h, true_and]
  · rw [if_neg h]
    exact Finset.sum_eq_zero fun n _ => if_neg fun hh => h hh.1

theorem renormBand_eq {A X : Type} [Fintype A] (U : Mesh n1 n2 n3 → A → Fin nb → ℂ) (q : Nat × Nat × Nat) (w : Mesh n1 n2 n3 → Fin nb → Fin nb → ℝ)
    (W : Matrix A A ℂ) (g : Cpl n1 n2 n3 nb X) (x : X) (k : Mesh n1 n2 n3) (m n : Fin nb) :
    renormBand (fun k m n => (w k m n : ℂ)) U q W (g x) k m n = dress (vertex U q) (weight w) W (mat g) (k, m, n) x := (dress_apply U q w W g x k m n).symm

theorem renormBandSub_eq {A X : Type} [Fintype A] {ns : Nat} (hs : ns ≤ nb) (U : Mesh n1 n2 n3 → A → Fin nb → ℂ) (q : Nat × Nat × Nat)
    (w : Mesh n1 n2 n3 → Fin nb → Fin nb → ℝ) (W : Matrix A A ℂ) (g : Cpl n1 n2 n3 nb X) (x : X) (k : Mesh n1 n2 n3) (m n : Fin nb) :
    renormBandSub hs (fun k m n => (w k m n : ℂ)) U q W (g x) k m n = dress (vertex U q) (weight (inside ns w)) W (mat g) (k, m, n) x := by
  rw [dress_apply]
  unfold renormBandSub
  refine congrArg (g x k m n + ·) (Finset.sum_congr rfl fun a _ => Finset.sum_congr rfl fun c _ => ?_)
  refine congrArg (fun z => star (slice U q k a m) * U k a n * W a c * (2 / ((n1 * n2 * n3 : Nat) : ℂ) * z)) (Finset.sum_congr rfl fun k _ => ?_)
  rw [← inside_sum hs fun m n => slice U q k c m * star (U k c n) * (w k m n : ℂ) * g x k m n]
  refine Finset.sum_congr rfl fun m _ => Finset.sum_congr rfl fun n _ => ?_
  unfold inside
  split <;> simp

theorem restCoupling_eq {A X : Type} [Fintype A] (ns : Nat) (U : Mesh n1 n2 n3 → A → Fin nb → ℂ) (q : Nat × Nat × Nat)
    (w : Mesh n1 n2 n3 → Fin nb → Fin nb → ℝ) (W : Matrix A A ℂ) (g : Cpl n1 n2 n3 nb X) :
    mat (restCoupling ns (fun k m n => (w k m n : ℂ)) U q W g) =
      dress (vertex U q) (weight fun k (m n : Fin nb) => if (m : Nat) < ns ∧ (n : Nat) < ns then 0 else w k m n) W (mat g) := by
  ext t x
  obtain ⟨k, m, n⟩ := t
  rw [dress_apply]
  show restCoupling ns (fun k m n => (w k m n : ℂ)) U q W g x k m n = _
  unfold restCoupling
  refine congrArg (g x k m n + ·) (Finset.sum_congr rfl fun a _ => Finset.sum_congr rfl fun c _ => ?_)
  refine congrArg (fun z => star (slice U q k a m) * U k a n * W a c * (2 / ((n1 * n2 * n3 : Nat) : ℂ) * z)) (Finset.sum_congr rfl fun k _ =>
    Finset.sum_congr rfl fun m _ => Finset.sum_congr rfl fun n _ => ?_)
  split <;> simp

theorem selfEnergy_eq {X : Type} [DecidableEq X] (w : Mesh n1 n2 n3 → Fin nb → Fin nb → ℝ) (g G : Cpl n1 n2 n3 nb X) (x y : X) :
    selfEnergy false false (fun k m n => (w k m n : ℂ)) (fun _ _ => 0) g (some G) x y = self (weight w) (mat g) (mat G) x y := by
  unfold selfEnergy contact piK self
  simp only [Complex.ofReal_zero, zero_div, mul_zero, zero_mul, Finset.sum_const_zero, add_zero, Bool.false_eq_true, false_and, if_false]
  rw [Matrix.mul_apply, sum_tr]
  simp only [Finset.mul_sum]
  refine Finset.sum_congr rfl fun k _ => Finset.sum_congr rfl fun m _ => Finset.sum_congr rfl fun n _ => ?_
  rw [mul_diagonal, weight_cast]
  simp only [conjTranspose_apply, mat, of_apply]
  ring

theorem selfEnergy_sym {X : Type} [DecidableEq X] (w : Mesh n1 n2 n3 → Fin nb → Fin nb → ℝ) (g G : Cpl n1 n2 n3 nb X) (x y : X) :
    selfEnergy true false (fun k m n => (w k m n : ℂ)) (fun _ _ => 0) g (some G) x y =
      (self (weight w) (mat g) (mat G) x y + self (weight w) (mat G) (mat g) x y) / 2 := by
  rw [← selfEnergy_eq, ← selfEnergy_eq]
  unfold selfEnergy contact piK
  simp only [Complex.ofReal_zero, zero_div, mul_zero, zero_mul, Finset.sum_const_zero, add_zero, Bool.false_eq_true, false_and, if_false, if_true]
  rw [← mul_add, mul_div_assoc]
  congr 1
  simp only [← Finset.sum_add_distrib, Finset.sum_div]
  refine Finset.sum_congr rfl fun k _ => Finset.sum_congr rfl fun m _ => Finset.sum_congr rfl fun n _ => ?_
  ring

theorem self_cut {X : Type} {ns : Nat} (hs : ns ≤ nb) (w : Mesh n1 n2 n3 → Fin nb → Fin nb → ℝ) (g G : Cpl n1 n2 n3 nb X) :
    self (weight fun k (m n : Fin ns) => w k (m.castLE hs) (n.castLE hs)) (mat (cut hs g)) (mat (cut hs G)) =
      self (weight (inside ns w)) (mat g) (mat G) := by
  ext x y
  unfold self
  rw [Matrix.mul_apply, Matrix.mul_apply, sum_tr, sum_tr]
  refine Finset.sum_congr rfl fun k _ => ?_
  have h := inside_sum hs fun m n => star (g x k m n) * (2 / ((n1 * n2 * n3 : Nat) : ℂ) * (w k m n : ℂ)) * G y k m n
  refine Eq.trans ?_ (h.symm.trans ?_)
  · refine Finset.sum_congr rfl fun m _ => Finset.sum_congr rfl fun n _ => ?_
    rw [mul_diagonal, weight_cast]
    rfl
  · refine Finset.sum_congr rfl fun m _ => Finset.sum_congr rfl fun n _ => ?_
    rw [mul_diagonal, weight_cast]
    simp only [conjTranspose_apply, mat, of_apply, inside]
    split <;> simp

theorem weights_cut {ns : Nat} (hs : ns ≤ nb) (eps kT : ℝ) (occ delta : ℝ → ℝ) (e : Mesh n1 n2 n3 → Fin nb → ℝ) (q : Fin 3 → ℝ) :
    weights eps kT occ delta none (cutE hs e) q = fun k m n => weights eps kT occ delta none e q k (m.castLE hs) (n.castLE hs) := rfl

theorem polarization_pol {A : Type} (eps kT : ℝ) (occ delta : ℝ → ℝ) (e : Mesh n1 n2 n3 → Fin nb → ℝ) (U : Mesh n1 n2 n3 → A → Fin nb → ℂ)
    (sub : Option (Mesh n1 n2 n3 → Fin nb → Bool)) (q : Fin 3 → ℝ) :
    polarization eps kT occ delta e U sub q = pol (vertex U (qIndices n1 n2 n3 q)) (weight (polWeight eps kT occ delta e sub q)) := by
  funext a b
  rw [polarization_eq]
  unfold pol
  rw [Matrix.mul_apply, sum_tr, Finset.mul_sum]
  have hc : ∀ F : Fin nb → Fin nb → Mesh n1 n2 n3 → ℂ, ∑ m, ∑ n, ∑ k, F m n k = ∑ k, ∑ m, ∑ n, F m n k := by
    intro F
    have : ∀ m, ∑ n, ∑ k, F m n k = ∑ k, ∑ n, F m n k := fun m => Finset.sum_comm
    simp only [this]
    exact Finset.sum_comm
  rw [← Finset.mul_sum, hc]
  simp only [Finset.mul_sum]
  refine Finset.sum_congr rfl fun k _ => Finset.sum_congr rfl fun m _ => Finset.sum_congr rfl fun n _ => ?_
  rw [mul_diagonal, weight_cast]
  simp only [conjTranspose_apply, vertex, of_apply, star_mul', star_star]
  ring

theorem polWeight_none (eps kT : ℝ) (occ delta : ℝ → ℝ) (e : Mesh n1 n2 n3 → Fin nb → ℝ) (q : Fin 3 → ℝ) :
    polWeight eps kT occ delta e none q = weights eps kT occ delta none e q := by
  funext k m n
  unfold polWeight weights envelope
  simp

theorem polWeight_first (ns : Nat) (eps kT : ℝ) (occ delta : ℝ → ℝ) (e : Mesh n1 n2 n3 → Fin nb → ℝ) (q : Fin 3 → ℝ) :
    polWeight eps kT occ delta e (some (firstBands ns)) q =
      fun k (m n : Fin nb) => if (m : Nat) < ns ∧ (n : Nat) < ns then 0 else weights eps kT occ delta none e q k m n := by
  funext k m n
  rw [← polWeight_none]
  unfold polWeight firstBands slice tile
  simp only [Bool.and_eq_true, decide_eq_true_eq]

theorem weight_split (ns : Nat) (w : Mesh n1 n2 n3 → Fin nb → Fin nb → ℝ) :
    weight w = fun t => weight (fun k (m n : Fin nb) => if (m : Nat) < ns ∧ (n : Nat) < ns then 0 else w k m n) t + weight (inside ns w) t := by
  funext t
  unfold weight inside
  rw [← mul_add]
  congr 1
  by_cases h : (t.2.1 : Nat) < ns ∧ (t.2.2 : Nat) < ns
  · simp only [if_pos h, zero_add]
  · simp only [if_neg h, add_zero]

section claims
variable {A X : Type} [Fintype A] [DecidableEq A] [Fintype X] [DecidableEq X] {eps kT : ℝ} {occ delta : ℝ → ℝ}

theorem weight_nonpos (w : Mesh n1 n2 n3 → Fin nb → Fin nb → ℝ) (h : ∀ k m n, w k m n ≤ 0) (t : Tr n1 n2 n3 nb) : weight w t ≤ 0 :=
  mul_nonpos_of_nonneg_of_nonpos (by positivity) (h _ _ _)

/-- Everything about the interaction screened by weights in two steps. -/
theorem two_steps (v : Matrix A A ℂ) (hv : v.PosSemidef) {T : Type} [Fintype T] [DecidableEq T] (ρ : Matrix T A ℂ) (s s' : T → ℝ) (hs : ∀ t, s t ≤ 0)
    (hs' : ∀ t, s' t ≤ 0) (Wr W : Matrix A A ℂ) (hr : Screens v (pol ρ s) Wr) (h : Screens v (pol ρ fun t => s t + s' t) W) :
    Wr.PosSemidef ∧ (v - Wr).PosSemidef ∧ W.PosSemidef ∧ (Wr - W).PosSemidef ∧ (W - W * (pol ρ fun t => -s' t) * W).PosSemidef ∧
      W = Wr + Wr * pol ρ s' * W ∧ W = Wr + W * pol ρ s' * Wr := by
  have hn : ∀ t, 0 ≤ -s t := fun t => neg_nonneg.2 (hs t)
  have hn' : ∀ t, 0 ≤ -s' t := fun t => neg_nonneg.2 (hs' t)
  obtain ⟨u1, u2⟩ := unit_screen v hv ρ (fun t => -s t) hn
  obtain ⟨-, hall⟩ := screened v _ hv (pol_psd ρ (fun t => -s t) hn) u1 u2
  obtain ⟨-, r1, r2, -⟩ := hall Wr (by rw [← pol_neg]; exact hr)
  have hd : Screens Wr (pol ρ s') W := by
    refine dyson v (pol ρ s) (pol ρ s') Wr W ?_ hr ?_
    · rw [pol_neg ρ s, Matrix.mul_neg, sub_neg_eq_add]
      exact u1
    · rw [← pol_add]
      exact h
  obtain ⟨u3, u4⟩ := unit_screen Wr r1 ρ (fun t => -s' t) hn'
  obtain ⟨-, hall'⟩ := screened Wr _ r1 (pol_psd ρ (fun t => -s' t) hn') u3 u4
  obtain ⟨-, w1, w2, w3⟩ := hall' W (by rw [← pol_neg]; exact hd)
  refine ⟨r1, r2, w1, w2, w3, hd, ?_⟩
  have := congrArg conjTranspose (show W = Wr + Wr * pol ρ s' * W from hd)
  rw [conjTranspose_add, conjTranspose_mul, conjTranspose_mul, pol_herm, w1.1.eq, r1.1.eq, ← Matrix.mul_assoc] at this
  exact this

/-- **C168**: for any nonnegative bare interaction and any subspace, there is exactly one interaction screened by everything and one screened without
the subspace. Screening reduces the interaction, more so with the subspace, but never makes it negative. -/
theorem C168_interaction (hkT : 0 < kT) (ho : Antitone occ) (hd : ∀ x, 0 ≤ delta x) (e : Mesh n1 n2 n3 → Fin nb → ℝ)
    (U : Mesh n1 n2 n3 → A → Fin nb → ℂ) (sub : Mesh n1 n2 n3 → Fin nb → Bool) (q : Fin 3 → ℝ) (v : Matrix A A ℂ) (hv : v.PosSemidef) :
    ∃ Wr W, (∀ W', Screens v (of (polarization eps kT occ delta e U (some sub) q)) W' ↔ W' = Wr) ∧
      (∀ W', Screens v (of (polarization eps kT occ delta e U none q)) W' ↔ W' = W) ∧
      (v - Wr).PosSemidef ∧ (Wr - W).PosSemidef ∧ W.PosSemidef := by
  set ρ := vertex U (qIndices n1 n2 n3 q)
  set s := weight (polWeight eps kT occ delta e (some sub) q) with hs
  set a := weight (polWeight eps kT occ delta e none q) with ha
  have hw : ∀ o k m n, polWeight eps kT occ delta e o q k m n ≤ 0 := fun o k m n => (polWeight_nonpos eps kT hkT occ delta ho hd e o q k m n).1
  have hs0 : ∀ t, s t ≤ 0 := weight_nonpos _ (hw _)
  have ha0 : ∀ t, a t ≤ 0 := weight_nonpos _ (hw _)
  have hd0 : ∀ t, a t - s t ≤ 0 := by
    intro t
    have : a t ≤ s t := mul_le_mul_of_nonneg_left (polWeight_nonpos eps kT hkT occ delta ho hd e (some sub) q _ _ _).2 (by positivity)
    linarith
  have main : ∀ s : Tr n1 n2 n3 nb → ℝ, (∀ t, s t ≤ 0) → ∃ W, ∀ W', Screens v (pol ρ s) W' ↔ W' = W := by
    intro s hs
    have hn : ∀ t, 0 ≤ -s t := fun t => neg_nonneg.2 (hs t)
    obtain ⟨u1, u2⟩ := unit_screen v hv ρ (fun t => -s t) hn
    obtain ⟨h1, h2⟩ := screened v _ hv (pol_psd ρ (fun t => -s t) hn) u1 u2
    refine ⟨_, fun W' => ⟨fun h => (h2 W' (by rw [← pol_neg]; exact h)).1, ?_⟩⟩
    rintro rfl
    rw [pol_neg ρ s]
    exact h1
  obtain ⟨Wr, hr⟩ := main s hs0
  obtain ⟨W, hW⟩ := main a ha0
  have he : a = fun t => s t + (a t - s t) := by
    funext t
    ring
  obtain ⟨-, t2, t3, t4, -⟩ := two_steps v hv ρ s (fun t => a t - s t) hs0 hd0 Wr W ((hr Wr).2 rfl) (by rw [← he]; exact (hW W).2 rfl)
  refine ⟨Wr, W, ?_, ?_, t2, t4, t3⟩
  · intro W'
    rw [← hr W', polarization_pol]
    rfl
  · intro W'
    rw [← hW W', polarization_pol]
    rfl

variable (hkT : 0 < kT) (ho : Antitone occ) (hd : ∀ x, 0 ≤ delta x) (e : Mesh n1 n2 n3 → Fin nb → ℝ) (U : Mesh n1 n2 n3 → A → Fin nb → ℂ) {ns : Nat}
  (hs : ns ≤ nb) (q : Fin 3 → ℝ) (v : Matrix A A ℂ) (hv : v.PosSemidef) (Wr W : Matrix A A ℂ)
  (hr : Screens v (of (polarization eps kT occ delta e U (some (firstBands ns)) q)) Wr)
  (hW : Screens v (of (polarization eps kT occ delta e U none q)) W) (g : Cpl n1 n2 n3 nb X)

include hkT ho hd hv hr hW in
theorem first_steps :
    (∀ t, weight (inside ns (weights eps kT occ delta none e q)) t ≤ 0) ∧ Wr.PosSemidef ∧ W.PosSemidef ∧
      (W - W * (pol (vertex U (qIndices n1 n2 n3 q)) fun t => -weight (inside ns (weights eps kT occ delta none e q)) t) * W).PosSemidef ∧
      W = Wr + Wr * pol (vertex U (qIndices n1 n2 n3 q)) (weight (inside ns (weights eps kT occ delta none e q))) * W ∧
      W = Wr + W * pol (vertex U (qIndices n1 n2 n3 q)) (weight (inside ns (weights eps kT occ delta none e q))) * Wr := by
  rw [polarization_pol, polWeight_first] at hr
  rw [polarization_pol, polWeight_none, weight_split ns] at hW
  have hw : ∀ k m n, weights eps kT occ delta none e q k m n ≤ 0 := by
    intro k m n
    rw [← polWeight_none]
    exact (polWeight_nonpos eps kT hkT occ delta ho hd e none q k m n).1
  have h1 : ∀ t, weight (inside ns (weights eps kT occ delta none e q)) t ≤ 0 := by
    refine weight_nonpos _ fun k m n => ?_
    unfold inside
    split
    · exact hw k m n
    · exact le_rfl
  have h2 : ∀ t, weight (fun k (m n : Fin nb) => if (m : Nat) < ns ∧ (n : Nat) < ns then 0 else weights eps kT occ delta none e q k m n) t ≤ 0 := by
    refine weight_nonpos _ fun k m n => ?_
    split
    · exact le_rfl
    · exact hw k m n
  obtain ⟨t1, -, t3, -, t5, t6, t7⟩ := two_steps v hv (vertex U (qIndices n1 n2 n3 q)) _ _ h2 h1 Wr W hr hW
  exact ⟨h1, t1, t3, t5, t6, t7⟩

include hkT ho hd hv hr hW in
/-- **C168**: if screening by the target subspace is added to the coupling with `renormalize_coupling_band(..., nbnd_sub=ns)`, the result is the same as
if all bands are considered from the beginning. -/
theorem C168_coupling (x : X) (k : Mesh n1 n2 n3) (m n : Fin nb) :
    renormBandSub hs (fun k m n => (weights eps kT occ delta none e q k m n : ℂ)) U (qIndices n1 n2 n3 q) W
        (restCoupling ns (fun k m n => (weights eps kT occ delta none e q k m n : ℂ)) U (qIndices n1 n2 n3 q) Wr g x) k m n =
      renormBand (fun k m n => (weights eps kT occ delta none e q k m n : ℂ)) U (qIndices n1 n2 n3 q) W (g x) k m n := by
  obtain ⟨-, -, -, -, -, h6⟩ := first_steps hkT ho hd e U q v hv Wr W hr hW (ns := ns)
  rw [renormBandSub_eq, renormBand_eq, restCoupling_eq, dress_dress _ _ _ _ _ h6, ← weight_split]

include hkT ho hd hv hr hW in
/-- **C168**: the renormalization of phonons by all bands is the sum of the one by all transitions except for those within the target subspace (bare and
partially screened coupling) and the one by the target subspace (partially and fully screened coupling). -/
theorem C168_phonons (sym : Bool) (x y : X) :
    let w := fun k m n => (weights eps kT occ delta none e q k m n : ℂ)
    let w' := fun k m n => (weights eps kT occ delta none (cutE hs e) q k m n : ℂ)
    let gr := restCoupling ns w U (qIndices n1 n2 n3 q) Wr g
    let G := fun x => renormBand w U (qIndices n1 n2 n3 q) W (g x)
    selfEnergy sym false w (fun _ _ => 0) g (some G) x y =
      (selfEnergy sym false w (fun _ _ => 0) g (some gr) x y - selfEnergy sym false w' (fun _ _ => 0) (cut hs g) (some (cut hs gr)) x y) +
        selfEnergy sym false w' (fun _ _ => 0) (cut hs gr) (some (cut hs G)) x y := by
  intro w w' gr G
  obtain ⟨-, h2, h3, -, h5, h6⟩ := first_steps hkT ho hd e U q v hv Wr W hr hW (ns := ns)
  set ρ := vertex U (qIndices n1 n2 n3 q)
  set wr := weights eps kT occ delta none e q with hwr
  have hgr : mat gr = dress ρ (weight fun k (m n : Fin nb) => if (m : Nat) < ns ∧ (n : Nat) < ns then 0 else wr k m n) Wr (mat g) :=
    restCoupling_eq ns U _ wr Wr g
  have hG : mat G = dress ρ (weight wr) W (mat g) := by
    ext t x
    exact renormBand_eq U _ wr W g x t.1 t.2.1 t.2.2
  have hsplit : ∀ a b : Matrix (Tr n1 n2 n3 nb) X ℂ, self (weight wr) a b =
      self (weight fun k (m n : Fin nb) => if (m : Nat) < ns ∧ (n : Nat) < ns then 0 else wr k m n) a b + self (weight (inside ns wr)) a b := by
    intro a b
    conv_lhs => rw [weight_split ns wr]
    unfold self
    rw [diag_add, Matrix.mul_add, Matrix.add_mul]
  have hcut : ∀ a b : Cpl n1 n2 n3 nb X, self (weight (weights eps kT occ delta none (cutE hs e) q)) (mat (cut hs a)) (mat (cut hs b)) =
      self (weight (inside ns wr)) (mat a) (mat b) := fun a b => self_cut hs wr a b
  have key : self (weight wr) (mat g) (mat G) =
      self (weight wr) (mat g) (mat gr) - self (weight (inside ns wr)) (mat g) (mat gr) + self (weight (inside ns wr)) (mat gr) (mat G) := by
    have h := self_self ρ (weight fun k (m n : Fin nb) => if (m : Nat) < ns ∧ (n : Nat) < ns then 0 else wr k m n) (weight (inside ns wr)) Wr W h6 h5
      h2.1 (mat g)
    rw [← weight_split, ← hG, ← hgr] at h
    rw [h, hsplit (mat g) (mat gr), add_sub_cancel_right]
  have keyH : self (weight wr) (mat G) (mat g) =
      self (weight wr) (mat gr) (mat g) - self (weight (inside ns wr)) (mat gr) (mat g) + self (weight (inside ns wr)) (mat G) (mat gr) := by
    have := congrArg conjTranspose key
    rw [conjTranspose_add, conjTranspose_sub] at this
    simpa only [self_herm] using this
  cases sym
  · rw [selfEnergy_eq, selfEnergy_eq, selfEnergy_eq, selfEnergy_eq, hcut, hcut, key]
    rfl
  · rw [selfEnergy_sym, selfEnergy_sym, selfEnergy_sym, selfEnergy_sym, hcut, hcut, hcut, hcut, key, keyH]
    simp only [Matrix.add_apply, Matrix.sub_apply]
    ring

include hkT ho hd hv hr hW in
/-- **C168**: the contribution of the target subspace is Hermitian, even if not symmetrized, never hardens phonons, and is never larger than the one
without screening by the target subspace. -/
theorem C168_bounds (sym : Bool) :
    let w := fun k m n => (weights eps kT occ delta none e q k m n : ℂ)
    let w' := fun k m n => (weights eps kT occ delta none (cutE hs e) q k m n : ℂ)
    let gr := restCoupling ns w U (qIndices n1 n2 n3 q) Wr g
    let G := fun x => renormBandSub hs w U (qIndices n1 n2 n3 q) W (gr x)
    selfEnergy true false w' (fun _ _ => 0) (cut hs gr) (some (cut hs G)) = selfEnergy false false w' (fun _ _ => 0) (cut hs gr) (some (cut hs G)) ∧
    (-of (selfEnergy sym false w' (fun _ _ => 0) (cut hs gr) (some (cut hs G)))).PosSemidef ∧
    (of (selfEnergy sym false w' (fun _ _ => 0) (cut hs gr) (some (cut hs G))) -
      of (selfEnergy sym false w' (fun _ _ => 0) (cut hs gr) none)).PosSemidef := by
  intro w w' gr G
  obtain ⟨h1, h2, h3, h4, h5, h6⟩ := first_steps hkT ho hd e U q v hv Wr W hr hW (ns := ns)
  set ρ := vertex U (qIndices n1 n2 n3 q)
  set wr := weights eps kT occ delta none e q with hwr
  have hG : mat G = dress ρ (weight (inside ns wr)) W (mat gr) := by
    ext t x
    exact renormBandSub_eq hs U _ wr W gr x t.1 t.2.1 t.2.2
  have hcut : ∀ a b : Cpl n1 n2 n3 nb X, self (weight (weights eps kT occ delta none (cutE hs e) q)) (mat (cut hs a)) (mat (cut hs b)) =
      self (weight (inside ns wr)) (mat a) (mat b) := fun a b => self_cut hs wr a b
  have hH := self_dress_herm ρ (weight (inside ns wr)) W h3.1 (mat gr)
  rw [self_herm, ← hG] at hH
  have e1 : selfEnergy false false w' (fun _ _ => 0) (cut hs gr) (some (cut hs G)) = self (weight (inside ns wr)) (mat gr) (mat G) := by
    funext x y
    rw [selfEnergy_eq, hcut]
  have e2 : selfEnergy true false w' (fun _ _ => 0) (cut hs gr) (some (cut hs G)) = self (weight (inside ns wr)) (mat gr) (mat G) := by
    funext x y
    rw [selfEnergy_sym, hcut, hcut, hH]
    ring
  have e3 : selfEnergy sym false w' (fun _ _ => 0) (cut hs gr) none = self (weight (inside ns wr)) (mat gr) (mat gr) := by
    have : selfEnergy sym false w' (fun _ _ => 0) (cut hs gr) none = selfEnergy false false w' (fun _ _ => 0) (cut hs gr) (some (cut hs gr)) := by
      funext x y
      unfold selfEnergy piK
      simp
    rw [this]
    funext x y
    rw [selfEnergy_eq, hcut]
  obtain ⟨b1, b2⟩ := self_bounds ρ _ h1 W h3 h4 (mat gr)
  rw [← hG] at b1 b2
  refine ⟨e2.trans e1.symm, ?_, ?_⟩
  · cases sym
    · rw [e1]; exact b1
    · rw [e2]; exact b1
  · rw [e3]
    cases sym
    · rw [e1]; exact b2
    · rw [e2]; exact b2

end claims

/-- Hypotheses of `C168_interaction`, `C168_coupling`, `C168_phonons` and `C168_bounds`: three bands, one of which forms the target subspace. -/
example (e : Mesh 6 6 1 → Fin 3 → ℝ) (U : Mesh 6 6 1 → Fin 3 → Fin 3 → ℂ) (g : Cpl 6 6 1 3 (Fin 2)) (k : Mesh 6 6 1) (sym : Bool) :
    ∃ Wr W : Matrix (Fin 3) (Fin 3) ℂ, (Wr - W).PosSemidef ∧
      renormBandSub (ns := 1) (by decide) (fun k m n => (weights 1e-10 0.025 Verif.Occ.gauss Verif.Occ.gaussDelta none e
          ![2 * Real.pi * (1 / 6 + 3), 0, 0] k m n : ℂ)) U (qIndices 6 6 1 ![2 * Real.pi * (1 / 6 + 3), 0, 0]) W
        (restCoupling 1 (fun k m n => (weights 1e-10 0.025 Verif.Occ.gauss Verif.Occ.gaussDelta none e
          ![2 * Real.pi * (1 / 6 + 3), 0, 0] k m n : ℂ)) U (qIndices 6 6 1 ![2 * Real.pi * (1 / 6 + 3), 0, 0]) Wr g 0) k 2 1 =
      renormBand (fun k m n => (weights 1e-10 0.025 Verif.Occ.gauss Verif.Occ.gaussDelta none e
          ![2 * Real.pi * (1 / 6 + 3), 0, 0] k m n : ℂ)) U (qIndices 6 6 1 ![2 * Real.pi * (1 / 6 + 3), 0, 0]) W (g 0) k 2 1 := by
  have hkT : (0 : ℝ) < 0.025 := by norm_num
  have ho := Verif.Occ.C35_gauss.anti.antitone
  have hd := fun x => (Verif.Occ.gaussDelta_pos x).le
  have hv : (1 : Matrix (Fin 3) (Fin 3) ℂ).PosSemidef := PosSemidef.one
  obtain ⟨Wr, W, h1, h2, -, h4, -⟩ := C168_interaction (eps := 1e-10) hkT ho hd e U (firstBands 1) ![2 * Real.pi * (1 / 6 + 3), 0, 0] 1 hv
  have := C168_phonons (ns := 1) hkT ho hd e U (by decide) _ 1 hv Wr W ((h1 Wr).2 rfl) ((h2 W).2 rfl) g sym 0 1
  have := C168_bounds (ns := 1) hkT ho hd e U (by decide) _ 1 hv Wr W ((h1 Wr).2 rfl) ((h2 W).2 rfl) g sym
  exact ⟨Wr, W, h4, C168_coupling (ns := 1) hkT ho hd e U (by decide) _ 1 hv Wr W ((h1 Wr).2 rfl) ((h2 W).2 rfl) g 0 k 2 1⟩

end results

end Verif.Diag.Screening
