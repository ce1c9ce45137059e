import Verif.Diag.Gauge
import Verif.ElPh.Supercell
import Mathlib.Algebra.BigOperators.Ring.Finset
import Mathlib.Logic.Equiv.Fin.Basic

/-!
# Phonon renormalization and supercells (C154)

The self-energy of a supercell is that of the unit cell, folded in the same way as the dynamical matrix.
-/

namespace Verif.Diag.Derivatives

open Matrix

/-! ### Folding of groups of wave vectors -/

section
variable {M M' : Type} [AddCommGroup M] [Fintype M] [DecidableEq M] [AddCommGroup M'] [Fintype M'] [DecidableEq M'] {C nb : Nat}

/-- Wave vectors of a unit cell, folded to those of a supercell of `C` cells, and phases of the cells. -/
structure Fold (fold : M → M') (χ : Fin C → M → ℂ) : Prop where
  add : ∀ a b, fold (a + b) = fold a + fold b
  card : ∀ K, Fintype.card {κ // fold κ = K} = C
  mul : ∀ r a b, χ r (a + b) = χ r a * χ r b
  unit : ∀ r a, star (χ r a) * χ r a = 1
  orth : ∀ a b, fold a = fold b → ∑ r, star (χ r a) * χ r b = if a = b then (C : ℂ) else 0

variable {fold : M → M'} {χ : Fin C → M → ℂ} (h : Fold fold χ)

include h

theorem Fold.pos : C ≠ 0 := by
  rw [← h.card (fold 0)]
  haveI : Nonempty {κ // fold κ = fold 0} := ⟨⟨0, rfl⟩⟩
  exact Fintype.card_ne_zero

omit [AddCommGroup M] [AddCommGroup M'] h in
theorem exists_fibre (hc : ∀ K, Fintype.card {κ // fold κ = K} = C) : ∃ φ : (K : M') → Fin C ≃ {κ // fold κ = K}, True :=
  ⟨fun K => (Fintype.equivFinOfCardEq (hc K)).symm, trivial⟩

theorem Fold.complete (K : M') (r s : Fin C) :
    ∑ κ : {κ // fold κ = K}, star (χ r κ) * χ s κ = if r = s then (C : ℂ) else 0 := by
  have hC : (C : ℂ) ≠ 0 := Nat.cast_ne_zero.2 h.pos
  let φ : Fin C ≃ {κ // fold κ = K} := (Fintype.equivFinOfCardEq (h.card K)).symm
  let B : Matrix (Fin C) (Fin C) ℂ := fun t r => χ r (φ t)
  let A : Matrix (Fin C) (Fin C) ℂ := fun r t => star (χ r (φ t)) / C
  have h1 : B * A = 1 := by
    ext t u
    rw [Matrix.mul_apply, Matrix.one_apply]
    have h2 := h.orth (φ u) (φ t) ((φ u).2.trans (φ t).2.symm)
    have h3 : ∑ r, B t r * A r u = (∑ r, star (χ r (φ u)) * χ r (φ t)) / C := by
      rw [Finset.sum_div]
      refine Finset.sum_congr rfl fun r _ => ?_
      show χ r (φ t) * (star (χ r (φ u)) / C) = _
      ring
    rw [h3, h2]
    by_cases htu : t = u
    · subst htu
      rw [if_pos rfl, if_pos rfl, div_self hC]
    · rw [if_neg htu, if_neg, zero_div]
      intro he
      exact htu (φ.injective (Subtype.ext he)).symm
  have h4 : A * B = 1 := mul_eq_one_comm.1 h1
  have h5 := congrFun (congrFun h4 r) s
  rw [Matrix.mul_apply, Matrix.one_apply] at h5
  rw [← Equiv.sum_comp φ]
  have h6 : ∑ t, star (χ r (φ t)) * χ s (φ t) = C * ∑ t, A r t * B t s := by
    rw [Finset.mul_sum]
    refine Finset.sum_congr rfl fun t _ => ?_
    show _ = C * (star (χ r (φ t)) / C * χ s (φ t))
    field_simp
  rw [h6, h5]
  split_ifs <;> simp

omit [AddCommGroup M] [AddCommGroup M'] h in
theorem sum_fibres (f : M → ℂ) : ∑ K, ∑ κ : {κ // fold κ = K}, f κ = ∑ κ, f κ := by
  rw [← Fintype.sum_sigma' (fun (K : M') (κ : {κ // fold κ = K}) => f κ)]
  exact Equiv.sum_comp (Equiv.sigmaFiberEquiv fold) f

/-! ### States of the supercell -/

/-- States and orbitals of the supercell: band or orbital of a wave vector or cell. -/
abbrev split : Fin (C * nb) ≃ Fin C × Fin nb := finProdFinEquiv.symm

omit h [Fintype M] [AddCommGroup M] [AddCommGroup M'] [DecidableEq M] [Fintype M'] [DecidableEq M'] in
theorem sum_split {β : Type} [AddCommMonoid β] (f : Fin (C * nb) → β) : ∑ A, f A = ∑ t, ∑ n, f (split.symm (t, n)) := by
  rw [← Equiv.sum_comp (split (C := C) (nb := nb)).symm f, Fintype.sum_prod_type]

variable {H : M → Matrix (Fin nb) (Fin nb) ℂ} {HS : M' → Matrix (Fin (C * nb)) (Fin (C * nb)) ℂ}
  {e : M → Fin nb → ℝ} {U : M → Matrix (Fin nb) (Fin nb) ℂ}

/-- Bloch states of the unit cell in the basis of the supercell. -/
noncomputable def foldU (φ : (K : M') → Fin C ≃ {κ // fold κ = K}) (χ : Fin C → M → ℂ) (U : M → Matrix (Fin nb) (Fin nb) ℂ) (K : M') :
    Matrix (Fin (C * nb)) (Fin (C * nb)) ℂ := fun B A =>
  χ (split B).1 (φ K (split A).1) * U (φ K (split A).1) (split B).2 (split A).2 / (Real.sqrt C : ℂ)

/-- Energies in the same order. -/
def foldE (φ : (K : M') → Fin C ≃ {κ // fold κ = K}) (e : M → Fin nb → ℝ) (K : M') (A : Fin (C * nb)) : ℝ :=
  e (φ K (split A).1) (split A).2

omit h [Fintype M] [AddCommGroup M] [AddCommGroup M'] [DecidableEq M] [Fintype M'] [DecidableEq M'] in
theorem sqrt_sq_C : (Real.sqrt C : ℂ) * (Real.sqrt C : ℂ) = C := by
  rw [← Complex.ofReal_mul, Real.mul_self_sqrt (Nat.cast_nonneg C), Complex.ofReal_natCast]

theorem fold_diagonalizes (φ : (K : M') → Fin C ≃ {κ // fold κ = K}) (hU : ∀ κ, Diagonalizes (H κ) (e κ) (U κ))
    (hH : ∀ κ r a b, ∑ s, χ s κ * HS (fold κ) (split.symm (r, a)) (split.symm (s, b)) = χ r κ * H κ a b) (K : M') :
    Diagonalizes (HS K) (foldE φ e K) (foldU φ χ U K) := by
  have hC : (Real.sqrt C : ℂ) ≠ 0 := by
    have : (C : ℂ) ≠ 0 := Nat.cast_ne_zero.2 h.pos
    rw [← sqrt_sq_C] at this
    exact left_ne_zero_of_mul this
  constructor
  · ext B A
    obtain ⟨⟨r, a⟩, rfl⟩ := split.symm.surjective B
    obtain ⟨⟨t, n⟩, rfl⟩ := split.symm.surjective A
    rw [Matrix.mul_apply, Matrix.mul_diagonal]
    have h1 : ∀ p : Fin C × Fin nb, foldU φ χ U K (split.symm p) (split.symm (t, n)) =
        χ p.1 (φ K t) * U (φ K t) p.2 n / (Real.sqrt C : ℂ) := by
      intro p
      unfold foldU
      simp only [Equiv.apply_symm_apply]
    rw [sum_split, Finset.sum_comm]
    simp only [h1]
    have h2 : ∀ b, ∑ s, HS K (split.symm (r, a)) (split.symm (s, b)) * (χ s (φ K t) * U (φ K t) b n / (Real.sqrt C : ℂ)) =
        χ r (φ K t) * (H (φ K t) a b * U (φ K t) b n) / (Real.sqrt C : ℂ) := by
      intro b
      have h3 := hH (φ K t) r a b
      rw [(φ K t).2] at h3
      rw [← mul_assoc, ← h3, Finset.sum_mul, Finset.sum_div]
      exact Finset.sum_congr rfl fun s _ => by ring
    simp only [h2]
    rw [← Finset.sum_div, ← Finset.mul_sum, ← Matrix.mul_apply, (hU (φ K t)).eig, Matrix.mul_diagonal]
    unfold foldE
    simp only [Equiv.apply_symm_apply]
    ring
  · ext A B
    obtain ⟨⟨u, m⟩, rfl⟩ := split.symm.surjective A
    obtain ⟨⟨t, n⟩, rfl⟩ := split.symm.surjective B
    rw [Matrix.mul_apply, Matrix.one_apply]
    have h1 : ∀ (p : Fin C × Fin nb) (t : Fin C) (n : Fin nb), foldU φ χ U K (split.symm p) (split.symm (t, n)) =
        χ p.1 (φ K t) * U (φ K t) p.2 n / (Real.sqrt C : ℂ) := by
      intro p t n
      unfold foldU
      simp only [Equiv.apply_symm_apply]
    rw [sum_split]
    simp only [conjTranspose_apply, h1]
    have hst : star (Real.sqrt C : ℂ) = (Real.sqrt C : ℂ) := Complex.conj_ofReal _
    have h2 : ∑ s, ∑ b, star (χ s (φ K u) * U (φ K u) b m / (Real.sqrt C : ℂ)) * (χ s (φ K t) * U (φ K t) b n / (Real.sqrt C : ℂ)) =
        (∑ s, star (χ s (φ K u)) * χ s (φ K t)) * (∑ b, star (U (φ K u) b m) * U (φ K t) b n) / C := by
      rw [Finset.sum_mul_sum, Finset.sum_div]
      refine Finset.sum_congr rfl fun s _ => ?_
      rw [Finset.sum_div]
      refine Finset.sum_congr rfl fun b _ => ?_
      rw [star_div₀, star_mul, hst, ← sqrt_sq_C]
      field_simp
    rw [h2, h.orth _ _ ((φ K u).2.trans (φ K t).2.symm)]
    have hC' : (C : ℂ) ≠ 0 := Nat.cast_ne_zero.2 h.pos
    by_cases hut : u = t
    · subst hut
      rw [if_pos rfl, mul_div_assoc, mul_div_cancel₀ _ hC']
      have h3 := congrFun (congrFun (hU (φ K u)).unitary m) n
      rw [Matrix.mul_apply, Matrix.one_apply] at h3
      simp only [conjTranspose_apply] at h3
      rw [h3]
      simp
    · rw [if_neg (fun he => hut ((φ K).injective (Subtype.ext he))), zero_mul, zero_div, if_neg]
      simp [hut]

/-! ### Vertices -/

omit h [Fintype M] [AddCommGroup M] [AddCommGroup M'] [DecidableEq M] [Fintype M'] [DecidableEq M'] in
theorem mix_apply {nb : Nat} (A W B : Matrix (Fin nb) (Fin nb) ℂ) (m n : Fin nb) :
    mix A W B m n = ∑ a, ∑ b, star (A a m) * W a b * B b n := by
  unfold mix
  rw [Matrix.mul_apply, Finset.sum_comm]
  refine Finset.sum_congr rfl fun b _ => ?_
  rw [Matrix.mul_apply, Finset.sum_mul]
  rfl

variable {X : Type} {g : M → X → M → Matrix (Fin nb) (Fin nb) ℂ}
  {gS : M' → Fin C × X → M' → Matrix (Fin (C * nb)) (Fin (C * nb)) ℂ}

/-- Specification: relation between couplings of unit cell and supercell. -/
def FoldsCoupling (fold : M → M') (χ : Fin C → M → ℂ) (g : M → X → M → Matrix (Fin nb) (Fin nb) ℂ)
    (gS : M' → Fin C × X → M' → Matrix (Fin (C * nb)) (Fin (C * nb)) ℂ) : Prop :=
  ∀ q κ i x a b, ∑ r, ∑ j, χ r q * χ j κ * gS (fold q) (r, x) (fold κ) (split.symm (i, a)) (split.symm (j, b)) =
    χ i q * χ i κ * g q x κ a b

/-- Vertex for a displacement with the wave vector `q`. -/
theorem vertex_wave (φ : (K : M') → Fin C ≃ {κ // fold κ = K}) (hg : FoldsCoupling fold χ g gS) (q : M) (x : X) (K : M') (t u : Fin C)
    (m n : Fin nb) : ∑ r, χ r q * mix (foldU φ χ U (K + fold q)) (gS (fold q) (r, x) K) (foldU φ χ U K) (split.symm (u, m)) (split.symm (t, n)) =
      if (φ (K + fold q) u : M) = φ K t + q then mix (U (φ K t + q)) (g q x (φ K t)) (U (φ K t)) m n else 0 := by
  have hC : (Real.sqrt C : ℂ) * (Real.sqrt C : ℂ) ≠ 0 := by
    rw [sqrt_sq_C]
    exact Nat.cast_ne_zero.2 h.pos
  have hC' : (Real.sqrt C : ℂ) ≠ 0 := left_ne_zero_of_mul hC
  have h1 : ∀ (K : M') (p : Fin C × Fin nb) (t : Fin C) (n : Fin nb), foldU φ χ U K (split.symm p) (split.symm (t, n)) =
      χ p.1 (φ K t) * U (φ K t) p.2 n / (Real.sqrt C : ℂ) := by
    intro K p t n
    unfold foldU
    simp only [Equiv.apply_symm_apply]
  have hst : star (Real.sqrt C : ℂ) = (Real.sqrt C : ℂ) := Complex.conj_ofReal _
  have h2 : ∑ r, χ r q * mix (foldU φ χ U (K + fold q)) (gS (fold q) (r, x) K) (foldU φ χ U K) (split.symm (u, m)) (split.symm (t, n)) =
      (∑ i, star (χ i (φ (K + fold q) u)) * χ i (φ K t + q)) / C *
        mix (U (φ (K + fold q) u)) (g q x (φ K t)) (U (φ K t)) m n := by
    have h3 : ∀ r, mix (foldU φ χ U (K + fold q)) (gS (fold q) (r, x) K) (foldU φ χ U K) (split.symm (u, m)) (split.symm (t, n)) =
        ∑ i, ∑ a, ∑ b, ∑ j, star (χ i (φ (K + fold q) u)) * star (U (φ (K + fold q) u) a m) * U (φ K t) b n / C *
          (χ j (φ K t) * gS (fold q) (r, x) K (split.symm (i, a)) (split.symm (j, b))) := by
      intro r
      rw [mix_apply, sum_split]
      refine Finset.sum_congr rfl fun i _ => Finset.sum_congr rfl fun a _ => ?_
      rw [sum_split, Finset.sum_comm]
      refine Finset.sum_congr rfl fun b _ => Finset.sum_congr rfl fun j _ => ?_
      rw [h1, h1, star_div₀, star_mul, hst, ← sqrt_sq_C]
      field_simp
    have h4 : ∀ i a b, ∑ r, ∑ j, χ r q * (χ j (φ K t) * gS (fold q) (r, x) K (split.symm (i, a)) (split.symm (j, b))) =
        χ i q * χ i (φ K t) * g q x (φ K t) a b := by
      intro i a b
      have h5 := hg q (φ K t) i x a b
      rw [(φ K t).2] at h5
      rw [← h5]
      exact Finset.sum_congr rfl fun r _ => Finset.sum_congr rfl fun j _ => by ring
    have h6 : ∀ i a b, ∑ r, χ r q * ∑ j, star (χ i (φ (K + fold q) u)) * star (U (φ (K + fold q) u) a m) * U (φ K t) b n / C *
          (χ j (φ K t) * gS (fold q) (r, x) K (split.symm (i, a)) (split.symm (j, b))) =
        star (χ i (φ (K + fold q) u)) * χ i (φ K t + q) / C * (star (U (φ (K + fold q) u) a m) * g q x (φ K t) a b * U (φ K t) b n) := by
      intro i a b
      rw [h.mul, show star (χ i (φ (K + fold q) u)) * (χ i (φ K t) * χ i q) / C *
          (star (U (φ (K + fold q) u) a m) * g q x (φ K t) a b * U (φ K t) b n) =
        star (χ i (φ (K + fold q) u)) * star (U (φ (K + fold q) u) a m) * U (φ K t) b n / C * (χ i q * χ i (φ K t) * g q x (φ K t) a b)
        by ring, ← h4, Finset.mul_sum]
      refine Finset.sum_congr rfl fun r _ => ?_
      rw [Finset.mul_sum, Finset.mul_sum]
      exact Finset.sum_congr rfl fun j _ => by ring
    simp only [h3, Finset.mul_sum] at h6 ⊢
    rw [mix_apply, Finset.sum_comm]
    rw [Finset.sum_div, Finset.sum_mul]
    refine Finset.sum_congr rfl fun i _ => ?_
    rw [Finset.sum_comm, Finset.mul_sum]
    refine Finset.sum_congr rfl fun a _ => ?_
    rw [Finset.sum_comm, Finset.mul_sum]
    exact Finset.sum_congr rfl fun b _ => h6 i a b
  rw [h2, h.orth]
  · split_ifs with he
    · rw [he, div_self, one_mul]
      exact Nat.cast_ne_zero.2 h.pos
    · rw [zero_div, zero_mul]
  · rw [(φ (K + fold q) u).2, h.add, (φ K t).2]

/-- Vertex for a displacement of one atom. -/
theorem vertex_atom (φ : (K : M') → Fin C ≃ {κ // fold κ = K}) (hg : FoldsCoupling fold χ g gS) (q : M) (r : Fin C) (x : X) (K : M')
    (t u : Fin C) (m n : Fin nb) (hu : (φ (K + fold q) u : M) = φ K t + q) :
    mix (foldU φ χ U (K + fold q)) (gS (fold q) (r, x) K) (foldU φ χ U K) (split.symm (u, m)) (split.symm (t, n)) =
      star (χ r q) * mix (U (φ K t + q)) (g q x (φ K t)) (U (φ K t)) m n / C := by
  have hC : (C : ℂ) ≠ 0 := Nat.cast_ne_zero.2 h.pos
  rw [eq_div_iff hC]
  set v := fun s => mix (foldU φ χ U (K + fold q)) (gS (fold q) (s, x) K) (foldU φ χ U K) (split.symm (u, m)) (split.symm (t, n)) with hv
  have h1 : ∀ q' : {κ // fold κ = fold q}, ∑ s, χ s q' * v s =
      if (q' : M) = q then mix (U (φ K t + q)) (g q x (φ K t)) (U (φ K t)) m n else 0 := by
    intro q'
    have h2 := vertex_wave (U := U) h φ hg q' x K t
    rw [q'.2] at h2
    rw [hv]
    show ∑ s, χ s q' * mix (foldU φ χ U (K + fold q)) (gS (fold q) (s, x) K) (foldU φ χ U K) (split.symm (u, m)) (split.symm (t, n)) = _
    rw [h2 u m n, hu]
    by_cases hq : (q' : M) = q
    · rw [if_pos hq, hq, if_pos rfl]
    · rw [if_neg hq, if_neg]
      intro he
      exact hq (add_left_cancel he).symm
  have h3 : ∑ q' : {κ // fold κ = fold q}, star (χ r q') * ∑ s, χ s q' * v s = v r * C := by
    have h4 : ∀ q' : {κ // fold κ = fold q}, star (χ r q') * ∑ s, χ s q' * v s = ∑ s, star (χ r q') * χ s q' * v s := by
      intro q'
      rw [Finset.mul_sum]
      exact Finset.sum_congr rfl fun s _ => by ring
    rw [Finset.sum_congr rfl fun q' _ => h4 q', Finset.sum_comm]
    have h5 : ∀ s, ∑ q' : {κ // fold κ = fold q}, star (χ r q') * χ s q' * v s = if r = s then (C : ℂ) * v s else 0 := by
      intro s
      rw [← Finset.sum_mul, h.complete (fold q) r s]
      split_ifs <;> simp
    simp only [h5]
    rw [Finset.sum_ite_eq, if_pos (Finset.mem_univ r), mul_comm]
  rw [show mix (foldU φ χ U (K + fold q)) (gS (fold q) (r, x) K) (foldU φ χ U K) (split.symm (u, m)) (split.symm (t, n)) = v r from rfl, ← h3]
  simp only [h1]
  rw [Finset.sum_eq_single ⟨q, rfl⟩]
  · rw [if_pos rfl]
  · intro q' _ hne
    rw [if_neg (fun he => hne (Subtype.ext he)), mul_zero]
  · intro hne
    exact absurd (Finset.mem_univ _) hne

/-! ### Sums -/

/-- Sum over pairs of states. -/
theorem sum2_fold (φ : (K : M') → Fin C ≃ {κ // fold κ = K}) (w : ℝ → ℝ → ℂ) {G : M → X → M → Matrix (Fin nb) (Fin nb) ℂ}
    {GS : M' → Fin C × X → M' → Matrix (Fin (C * nb)) (Fin (C * nb)) ℂ} (hg : FoldsCoupling fold χ g gS) (hG : FoldsCoupling fold χ G GS)
    (q : M) (r : Fin C) (x y : X) :
    ∑ s, χ s q * ∑ K, sum2 w (foldE φ e K) (foldE φ e (K + fold q)) (foldU φ χ U K) (foldU φ χ U (K + fold q))
        (gS (fold q) (r, x) K)ᴴ (GS (fold q) (s, y) K) =
      χ r q / C * ∑ κ, sum2 w (e κ) (e (κ + q)) (U κ) (U (κ + q)) (g q x κ)ᴴ (G q y κ) := by
  have hE : ∀ (K : M') (t : Fin C) (n : Fin nb), foldE φ e K (split.symm (t, n)) = e (φ K t) n := by
    intro K t n
    unfold foldE
    simp only [Equiv.apply_symm_apply]
  have h1 : ∀ K, ∑ s, χ s q * sum2 w (foldE φ e K) (foldE φ e (K + fold q)) (foldU φ χ U K) (foldU φ χ U (K + fold q))
      (gS (fold q) (r, x) K)ᴴ (GS (fold q) (s, y) K) = ∑ κ : {κ // fold κ = K},
        χ r q / C * sum2 w (e κ) (e (κ + q)) (U κ) (U (κ + q)) (g q x κ)ᴴ (G q y κ) := by
    intro K
    have h2 : ∀ s, χ s q * sum2 w (foldE φ e K) (foldE φ e (K + fold q)) (foldU φ χ U K) (foldU φ χ U (K + fold q))
      (gS (fold q) (r, x) K)ᴴ (GS (fold q) (s, y) K) = ∑ t, ∑ n, ∑ u, ∑ m, w (e (φ K t) n) (e (φ (K + fold q) u) m) *
        star (mix (foldU φ χ U (K + fold q)) (gS (fold q) (r, x) K) (foldU φ χ U K) (split.symm (u, m)) (split.symm (t, n))) *
        (χ s q * mix (foldU φ χ U (K + fold q)) (GS (fold q) (s, y) K) (foldU φ χ U K) (split.symm (u, m)) (split.symm (t, n))) := by
      intro s
      unfold sum2
      rw [sum_split, Finset.mul_sum]
      refine Finset.sum_congr rfl fun t _ => ?_
      rw [Finset.mul_sum]
      refine Finset.sum_congr rfl fun n _ => ?_
      rw [sum_split, Finset.mul_sum]
      refine Finset.sum_congr rfl fun u _ => ?_
      rw [Finset.mul_sum]
      refine Finset.sum_congr rfl fun m _ => ?_
      rw [hE, hE, star_mix]
      ring
    simp only [h2]
    rw [Finset.sum_comm, ← Equiv.sum_comp (φ K)]
    refine Finset.sum_congr rfl fun t _ => ?_
    unfold sum2
    rw [Finset.sum_comm, Finset.mul_sum]
    refine Finset.sum_congr rfl fun n _ => ?_
    rw [Finset.sum_comm]
    have hf : fold (φ K t + q) = K + fold q := by rw [h.add, (φ K t).2]
    let u0 : Fin C := (φ (K + fold q)).symm ⟨φ K t + q, hf⟩
    have hu0 : (φ (K + fold q) u0 : M) = φ K t + q := by
      show (φ (K + fold q) ((φ (K + fold q)).symm ⟨φ K t + q, hf⟩) : M) = _
      rw [Equiv.apply_symm_apply]
    have h3 : ∀ u m, ∑ s, w (e (φ K t) n) (e (φ (K + fold q) u) m) *
        star (mix (foldU φ χ U (K + fold q)) (gS (fold q) (r, x) K) (foldU φ χ U K) (split.symm (u, m)) (split.symm (t, n))) *
        (χ s q * mix (foldU φ χ U (K + fold q)) (GS (fold q) (s, y) K) (foldU φ χ U K) (split.symm (u, m)) (split.symm (t, n))) =
        if u = u0 then χ r q / C * (w (e (φ K t) n) (e (φ K t + q) m) * (mix (U (φ K t)) (g q x (φ K t))ᴴ (U (φ K t + q)) n m *
          mix (U (φ K t + q)) (G q y (φ K t)) (U (φ K t)) m n)) else 0 := by
      intro u m
      rw [← Finset.mul_sum, vertex_wave h φ hG q y K t u m n]
      by_cases hu : u = u0
      · subst hu
        have hst : star (C : ℂ) = C := star_natCast C
        rw [if_pos hu0, if_pos rfl, vertex_atom h φ hg q r x K t u0 m n hu0, hu0, star_div₀, star_mul, star_star, star_mix, hst]
        ring
      · rw [if_neg hu, if_neg, mul_zero]
        intro he
        refine hu ((φ (K + fold q)).injective (Subtype.ext ?_))
        rw [he, hu0]
    have h4 : ∀ u, ∑ s, ∑ m, w (e (φ K t) n) (e (φ (K + fold q) u) m) *
        star (mix (foldU φ χ U (K + fold q)) (gS (fold q) (r, x) K) (foldU φ χ U K) (split.symm (u, m)) (split.symm (t, n))) *
        (χ s q * mix (foldU φ χ U (K + fold q)) (GS (fold q) (s, y) K) (foldU φ χ U K) (split.symm (u, m)) (split.symm (t, n))) =
        if u = u0 then ∑ m, χ r q / C * (w (e (φ K t) n) (e (φ K t + q) m) * (mix (U (φ K t)) (g q x (φ K t))ᴴ (U (φ K t + q)) n m *
          mix (U (φ K t + q)) (G q y (φ K t)) (U (φ K t)) m n)) else 0 := by
      intro u
      rw [Finset.sum_comm]
      simp only [h3]
      split_ifs
      · rfl
      · exact Finset.sum_const_zero
    simp only [h4]
    rw [Finset.sum_ite_eq' Finset.univ u0, if_pos (Finset.mem_univ u0), Finset.mul_sum]
  rw [Finset.mul_sum, ← sum_fibres (fold := fold) fun κ => χ r q / C * sum2 w (e κ) (e (κ + q)) (U κ) (U (κ + q)) (g q x κ)ᴴ (G q y κ),
    ← Finset.sum_congr rfl fun K _ => h1 K, Finset.sum_comm]
  exact Finset.sum_congr rfl fun s _ => Finset.mul_sum _ _ _

/-- Sum over states for a displacement of one atom in all supercells. -/
theorem sum1_fold (φ : (K : M') → Fin C ≃ {κ // fold κ = K}) (w : ℝ → ℂ) (hg : FoldsCoupling fold χ g gS) (r : Fin C) (x : X) :
    ∑ K, sum1 w (foldE φ e K) (foldU φ χ U K) (gS 0 (r, x) K) = (∑ κ, sum1 w (e κ) (U κ) (g 0 x κ)) / C := by
  have hE : ∀ (K : M') (t : Fin C) (n : Fin nb), foldE φ e K (split.symm (t, n)) = e (φ K t) n := by
    intro K t n
    unfold foldE
    simp only [Equiv.apply_symm_apply]
  have hf : fold 0 = 0 := by
    have := h.add 0 0
    rw [add_zero] at this
    exact left_eq_add.1 this
  have hχ : ∀ r, χ r 0 = 1 := by
    intro r
    have h1 := h.mul r 0 0
    have h2 := h.unit r 0
    rw [add_zero] at h1
    have h3 : χ r 0 ≠ 0 := fun h3 => by rw [h3, mul_zero] at h2; exact zero_ne_one h2
    exact mul_left_cancel₀ h3 (by rw [← h1, mul_one])
  rw [Finset.sum_div, ← sum_fibres (fold := fold) fun κ => sum1 w (e κ) (U κ) (g 0 x κ) / C]
  refine Finset.sum_congr rfl fun K _ => ?_
  unfold sum1
  rw [sum_split, ← Equiv.sum_comp (φ K)]
  refine Finset.sum_congr rfl fun t _ => ?_
  rw [Finset.sum_div]
  refine Finset.sum_congr rfl fun n _ => ?_
  have h1 := vertex_atom (U := U) h φ hg 0 r x K t
  rw [hf, add_zero, add_zero] at h1
  rw [hE, h1 t n n rfl, hχ, star_one, one_mul, mul_div_assoc]

/-- Sum of energies. -/
theorem sum0_fold (φ : (K : M') → Fin C ≃ {κ // fold κ = K}) (w : ℝ → ℝ) :
    ∑ K, ∑ n, w (foldE φ e K n) = ∑ κ, ∑ n, w (e κ n) := by
  have h1 := sum_fibres (fold := fold) fun κ => ((∑ n, w (e κ n) : ℝ) : ℂ)
  apply Complex.ofReal_injective
  push_cast at h1 ⊢
  rw [← h1]
  refine Finset.sum_congr rfl fun K _ => ?_
  rw [sum_split, ← Equiv.sum_comp (φ K)]
  refine Finset.sum_congr rfl fun t _ => Finset.sum_congr rfl fun n _ => ?_
  unfold foldE
  simp only [Equiv.apply_symm_apply]

/-- A matrix is determined by its action on plane waves. -/
theorem unfold_unique (Q : M') (A B : Fin C → ℂ) (hAB : ∀ q, fold q = Q → ∑ s, χ s q * A s = ∑ s, χ s q * B s) (s : Fin C) : A s = B s := by
  have hC : (C : ℂ) ≠ 0 := Nat.cast_ne_zero.2 h.pos
  have key : ∀ A : Fin C → ℂ, ∑ q : {κ // fold κ = Q}, star (χ s q) * ∑ s, χ s q * A s = C * A s := by
    intro A
    have h4 : ∀ q : {κ // fold κ = Q}, star (χ s q) * ∑ s, χ s q * A s = ∑ s', star (χ s q) * χ s' q * A s' := by
      intro q'
      rw [Finset.mul_sum]
      exact Finset.sum_congr rfl fun s _ => by ring
    rw [Finset.sum_congr rfl fun q' _ => h4 q', Finset.sum_comm]
    have h5 : ∀ s', ∑ q : {κ // fold κ = Q}, star (χ s q) * χ s' q * A s' = if s = s' then (C : ℂ) * A s' else 0 := by
      intro s'
      rw [← Finset.sum_mul, h.complete Q s s']
      split_ifs <;> simp
    simp only [h5]
    rw [Finset.sum_ite_eq, if_pos (Finset.mem_univ s)]
  refine mul_left_cancel₀ hC ?_
  rw [← key A, ← key B]
  exact Finset.sum_congr rfl fun q _ => by rw [hAB q q.2]

end

end Verif.Diag.Derivatives
