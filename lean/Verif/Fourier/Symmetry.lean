import Verif.Fourier.Exact
import Mathlib.LinearAlgebra.Matrix.ConjTranspose

/-!
# Property C171: interpolated models inherit the symmetries of the samples

If the matrices sampled on a mesh are Hermitian, invariant under time reversal or invariant under an operation of a space group, the models set up from
them have the same symmetry at all wave vectors, provided that no shortest bond is at the edge of the range searched by `wigner`.
-/

namespace Verif.Fourier

open Verif.Voronoi

/-! ### Specification -/

/-- A lattice vector on a shortest bond (up to the tolerance) among the equivalent ones within two supercells. -/
def Shortest (sgn : Int) (n1 n2 n3 : Nat) (len : V3 → ℝ) (R : V3) : Prop :=
  InRange sgn n1 n2 n3 R ∧ ∀ R', Equivalent n1 n2 n3 R R' → InRange sgn n1 n2 n3 R' → len R < len R' + 1e-7

/-- No shortest bond is at the edge of the (asymmetric) search range. -/
def Inside (sgn : Int) (n1 n2 n3 : Nat) (len : V3 → ℝ) : Prop :=
  ∀ R, Shortest sgn n1 n2 n3 len R → InRange sgn n1 n2 n3 (-R)

/-- A map of lattice vectors that preserves equivalence and bond lengths and does not leave the search range. -/
structure Maps (sgn : Int) (n1 n2 n3 : Nat) (len len' : V3 → ℝ) (ρ : V3 ≃ V3) : Prop where
  equiv : ∀ R R', Equivalent n1 n2 n3 R R' ↔ Equivalent n1 n2 n3 (ρ R) (ρ R')
  length : ∀ R, len' (ρ R) = len R
  range : ∀ R, Shortest sgn n1 n2 n3 len R → InRange sgn n1 n2 n3 (ρ R)
  range' : ∀ R, Shortest sgn n1 n2 n3 len' R → InRange sgn n1 n2 n3 (ρ.symm R)

/-! ### Mesh points and classes -/

/-- Finite set of mesh points. -/
def meshSet (n1 n2 n3 : Nat) : Finset V3 := (mesh3 n1 n2 n3).toFinset

theorem mem_meshSet {n1 n2 n3 : Nat} {m : V3} : m ∈ meshSet n1 n2 n3 ↔ IsMesh n1 n2 n3 m := by
  rw [meshSet, List.mem_toFinset, mem_mesh3]

/-- The mesh point `m` as a lattice vector. -/
def signed (sgn : Int) (m : V3) : V3 := (sgn * m.1, sgn * m.2.1, sgn * m.2.2)

theorem equivalent_iff (sgn : Int) (hs : sgn = 1 ∨ sgn = -1) (n1 n2 n3 : Nat) (R R' : V3) :
    Equivalent n1 n2 n3 R R' ↔ meshIndex sgn n1 n2 n3 R = meshIndex sgn n1 n2 n3 R' := by
  have key : ∀ (n : Nat) (x y : Int), (n : Int) ∣ y - x ↔ sgn * x % n = sgn * y % n := by
    intro n x y
    have h : (n : Int) ∣ y - x ↔ (n : Int) ∣ sgn * y - sgn * x := by
      rcases hs with rfl | rfl
      · simp
      · rw [show (-1 : Int) * y - -1 * x = -(y - x) by ring, dvd_neg]
    rw [h]
    exact Int.modEq_iff_dvd.symm
  unfold Equivalent meshIndex
  rw [key, key, key, Prod.mk.injEq, Prod.mk.injEq]

theorem meshIndex_signed (sgn : Int) (hs : sgn = 1 ∨ sgn = -1) (n1 n2 n3 : Nat) (m : V3) (hm : IsMesh n1 n2 n3 m) :
    meshIndex sgn n1 n2 n3 (signed sgn m) = m := by
  have hss : sgn * sgn = 1 := by rcases hs with rfl | rfl <;> rfl
  obtain ⟨⟨a1, a2⟩, ⟨b1, b2⟩, c1, c2⟩ := hm
  simp only [meshIndex, signed, ← mul_assoc, hss, one_mul, Int.emod_eq_of_lt a1 a2, Int.emod_eq_of_lt b1 b2, Int.emod_eq_of_lt c1 c2]

/-- Mesh point of the image of a mesh point. -/
def image (sgn : Int) (n1 n2 n3 : Nat) (ρ : V3 → V3) (m : V3) : V3 := meshIndex sgn n1 n2 n3 (ρ (signed sgn m))

theorem image_isMesh (sgn : Int) (n1 n2 n3 : Nat) (h1 : 0 < n1) (h2 : 0 < n2) (h3 : 0 < n3) (ρ : V3 → V3) (m : V3) :
    IsMesh n1 n2 n3 (image sgn n1 n2 n3 ρ m) := meshIndex_isMesh sgn n1 n2 n3 h1 h2 h3 _

theorem image_image (sgn : Int) (hs : sgn = 1 ∨ sgn = -1) (n1 n2 n3 : Nat) (h1 : 0 < n1) (h2 : 0 < n2) (h3 : 0 < n3) (ρ : V3 ≃ V3)
    (he : ∀ R R', Equivalent n1 n2 n3 R R' ↔ Equivalent n1 n2 n3 (ρ R) (ρ R')) (m : V3) (hm : IsMesh n1 n2 n3 m) :
    image sgn n1 n2 n3 ρ.symm (image sgn n1 n2 n3 ρ m) = m := by
  have h := (equivalent_iff sgn hs n1 n2 n3 (ρ.symm (signed sgn (image sgn n1 n2 n3 ρ m))) (signed sgn m)).1 (by
    rw [he, Equiv.apply_symm_apply, equivalent_iff sgn hs,
      meshIndex_signed sgn hs n1 n2 n3 _ (image_isMesh sgn n1 n2 n3 h1 h2 h3 ρ m)]
    rfl)
  unfold image at *
  rw [h, meshIndex_signed sgn hs n1 n2 n3 m hm]

theorem equiv_symm {n1 n2 n3 : Nat} {ρ : V3 ≃ V3} (he : ∀ R R', Equivalent n1 n2 n3 R R' ↔ Equivalent n1 n2 n3 (ρ R) (ρ R')) :
    ∀ R R', Equivalent n1 n2 n3 R R' ↔ Equivalent n1 n2 n3 (ρ.symm R) (ρ.symm R') := fun R R' => by
  rw [he (ρ.symm R) (ρ.symm R'), Equiv.apply_symm_apply, Equiv.apply_symm_apply]

/-- Sums over mesh points do not change if each mesh point is replaced by its image. -/
theorem sum_image (sgn : Int) (hs : sgn = 1 ∨ sgn = -1) (n1 n2 n3 : Nat) (h1 : 0 < n1) (h2 : 0 < n2) (h3 : 0 < n3) (ρ : V3 ≃ V3)
    (he : ∀ R R', Equivalent n1 n2 n3 R R' ↔ Equivalent n1 n2 n3 (ρ R) (ρ R')) (f : V3 → ℂ) :
    ∑ m ∈ meshSet n1 n2 n3, f (image sgn n1 n2 n3 ρ m) = ∑ m ∈ meshSet n1 n2 n3, f m := by
  refine Finset.sum_nbij' (image sgn n1 n2 n3 ρ) (image sgn n1 n2 n3 ρ.symm)
    (fun m _ => mem_meshSet.2 (image_isMesh sgn n1 n2 n3 h1 h2 h3 _ m))
    (fun m _ => mem_meshSet.2 (image_isMesh sgn n1 n2 n3 h1 h2 h3 _ m))
    (fun m hm => image_image sgn hs n1 n2 n3 h1 h2 h3 ρ he m (mem_meshSet.1 hm))
    (fun m hm => ?_) (fun m _ => rfl)
  have := image_image sgn hs n1 n2 n3 h1 h2 h3 ρ.symm (equiv_symm he) m (mem_meshSet.1 hm)
  rwa [Equiv.symm_symm] at this

/-! ### Selected lattice vectors -/

theorem mem_sel (sgn : Int) (hs : sgn = 1 ∨ sgn = -1) (n1 n2 n3 : Nat) (h1 : 0 < n1) (h2 : 0 < n2) (h3 : 0 < n3) (len : V3 → ℝ) (R R' : V3) :
    R' ∈ sel sgn n1 n2 n3 len (meshIndex sgn n1 n2 n3 R) ↔ Equivalent n1 n2 n3 R R' ∧ Shortest sgn n1 n2 n3 len R' := by
  have hc := mem_range_copies sgn hs n1 n2 n3 h1 h2 h3 R
  rw [sel, mem_selected _ _ _ _ (by norm_num)]
  have tr : ∀ x y z : V3, Equivalent n1 n2 n3 x y → Equivalent n1 n2 n3 y z → Equivalent n1 n2 n3 x z := fun x y z hxy hyz => by
    rw [equivalent_iff 1 (Or.inl rfl)] at *
    exact hxy.trans hyz
  have sy : ∀ x y : V3, Equivalent n1 n2 n3 x y → Equivalent n1 n2 n3 y x := fun x y hxy => by
    rw [equivalent_iff 1 (Or.inl rfl)] at *
    exact hxy.symm
  constructor
  · rintro ⟨h, hmin⟩
    obtain ⟨e, r⟩ := (hc R').1 h
    exact ⟨e, r, fun R'' e'' r'' => hmin R'' ((hc R'').2 ⟨tr _ _ _ e e'', r''⟩)⟩
  · rintro ⟨e, r, hmin⟩
    refine ⟨(hc R').2 ⟨e, r⟩, fun R'' h => ?_⟩
    obtain ⟨e'', r''⟩ := (hc R'').1 h
    exact hmin R'' (tr _ _ _ (sy _ _ e) e'') r''

theorem exists_shortest (sgn : Int) (hs : sgn = 1 ∨ sgn = -1) (n1 n2 n3 : Nat) (h1 : 0 < n1) (h2 : 0 < n2) (h3 : 0 < n3) (len : V3 → ℝ) (R : V3)
    (hR : InRange sgn n1 n2 n3 R) :
    ∃ R0, Equivalent n1 n2 n3 R R0 ∧ InRange sgn n1 n2 n3 R0 ∧ ∀ R', Equivalent n1 n2 n3 R R' → InRange sgn n1 n2 n3 R' → len R0 ≤ len R' := by
  have hc := mem_range_copies sgn hs n1 n2 n3 h1 h2 h3 R
  have hne : ((copies sgn ((n1 : Int), (n2 : Int), (n3 : Int)) 2
      (classOf sgn ((n1 : Int), (n2 : Int), (n3 : Int)) R)).toFinset).Nonempty :=
    ⟨R, List.mem_toFinset.2 ((hc R).2 ⟨⟨by simp, by simp, by simp⟩, hR⟩)⟩
  obtain ⟨R0, h0, hmin⟩ := Finset.exists_min_image _ len hne
  obtain ⟨e, r⟩ := (hc R0).1 (List.mem_toFinset.1 h0)
  exact ⟨R0, e, r, fun R' e' r' => hmin R' (List.mem_toFinset.2 ((hc R').2 ⟨e', r'⟩))⟩

theorem Maps.shortest {sgn : Int} {n1 n2 n3 : Nat} {len len' : V3 → ℝ} {ρ : V3 ≃ V3} (h : Maps sgn n1 n2 n3 len len' ρ)
    (hs : sgn = 1 ∨ sgn = -1) (h1 : 0 < n1) (h2 : 0 < n2) (h3 : 0 < n3) (R : V3) (hR : Shortest sgn n1 n2 n3 len R) :
    Shortest sgn n1 n2 n3 len' (ρ R) := by
  refine ⟨h.range R hR, fun R' e r => ?_⟩
  obtain ⟨R0, e0, r0, hmin⟩ := exists_shortest sgn hs n1 n2 n3 h1 h2 h3 len' (ρ R) (h.range R hR)
  have hsh : Shortest sgn n1 n2 n3 len' R0 := ⟨r0, fun R'' e'' r'' => by
    have : Equivalent n1 n2 n3 (ρ R) R'' := by
      rw [equivalent_iff 1 (Or.inl rfl)] at *
      exact e0.trans e''
    have := hmin R'' this r''
    linarith [show (0 : ℝ) < 1e-7 by norm_num]⟩
  have h4 := hR.2 (ρ.symm R0) (by rw [h.equiv, Equiv.apply_symm_apply]; exact e0) (h.range' R0 hsh)
  rw [← h.length (ρ.symm R0), Equiv.apply_symm_apply] at h4
  rw [h.length R]
  linarith [hmin R' e r]

theorem Maps.symm {sgn : Int} {n1 n2 n3 : Nat} {len len' : V3 → ℝ} {ρ : V3 ≃ V3} (h : Maps sgn n1 n2 n3 len len' ρ) :
    Maps sgn n1 n2 n3 len' len ρ.symm :=
  ⟨equiv_symm h.equiv, fun R => by rw [← h.length, Equiv.apply_symm_apply], h.range', fun R hR => by
    rw [Equiv.symm_symm]; exact h.range R hR⟩

/-- The selected lattice vectors of the image of a mesh point are the images of its selected lattice vectors. -/
theorem Maps.sel {sgn : Int} {n1 n2 n3 : Nat} {len len' : V3 → ℝ} {ρ : V3 ≃ V3} (h : Maps sgn n1 n2 n3 len len' ρ)
    (hs : sgn = 1 ∨ sgn = -1) (h1 : 0 < n1) (h2 : 0 < n2) (h3 : 0 < n3) (m : V3) (hm : IsMesh n1 n2 n3 m) :
    (Verif.Fourier.sel sgn n1 n2 n3 len' (image sgn n1 n2 n3 ρ m)).toFinset =
      (Verif.Fourier.sel sgn n1 n2 n3 len m).toFinset.map ρ.toEmbedding := by
  ext R
  rw [List.mem_toFinset, image, mem_sel sgn hs n1 n2 n3 h1 h2 h3, Finset.mem_map_equiv, List.mem_toFinset]
  conv_rhs => rw [← meshIndex_signed sgn hs n1 n2 n3 m hm]
  rw [mem_sel sgn hs n1 n2 n3 h1 h2 h3, h.equiv (signed sgn m), Equiv.apply_symm_apply]
  refine and_congr_right fun _ => ⟨fun hR => h.symm.shortest hs h1 h2 h3 R hR, fun hR => ?_⟩
  have := h.shortest hs h1 h2 h3 _ hR
  rwa [Equiv.apply_symm_apply] at this

/-- Mean of phases over the selected lattice vectors. -/
noncomputable def mean (sgn : Int) (n1 n2 n3 : Nat) (len : V3 → ℝ) (m : V3) (k : Fin 3 → ℝ) : ℂ :=
  (∑ R ∈ (sel sgn n1 n2 n3 len m).toFinset, phase R k) / ((sel sgn n1 n2 n3 len m).toFinset.card : ℂ)

theorem Maps.mean {sgn : Int} {n1 n2 n3 : Nat} {len len' : V3 → ℝ} {ρ : V3 ≃ V3} (h : Maps sgn n1 n2 n3 len len' ρ)
    (hs : sgn = 1 ∨ sgn = -1) (h1 : 0 < n1) (h2 : 0 < n2) (h3 : 0 < n3) (m : V3) (hm : IsMesh n1 n2 n3 m) (k : Fin 3 → ℝ) :
    Verif.Fourier.mean sgn n1 n2 n3 len' (image sgn n1 n2 n3 ρ m) k =
      (∑ R ∈ (Verif.Fourier.sel sgn n1 n2 n3 len m).toFinset, phase (ρ R) k) /
        ((Verif.Fourier.sel sgn n1 n2 n3 len m).toFinset.card : ℂ) := by
  unfold Verif.Fourier.mean
  rw [h.sel hs h1 h2 h3 m hm, Finset.sum_map, Finset.card_map]
  rfl

/-- Model from `short_range_model` as a sum over mesh points. -/
theorem shortRange_mean {n c : Nat} (size : Nat) (hsize : 0 < size) (n1 n2 n3 : Nat) (h1 : 0 < n1) (h2 : 0 < n2) (h3 : 0 < n3)
    (at' : Fin 3 → Fin 3 → ℝ) (tau : Fin n → Fin 3 → ℝ) (sgn : Int) (hs : sgn = 1 ∨ sgn = -1)
    (data : Fin n → Fin n → V3 → Fin c → Fin c → ℂ) :
    ∃ l, shortRange size n1 n2 n3 at' tau sgn true data = some l ∧ ∀ k (a b : Fin n × Fin c),
      bloch l k a b = ∑ m ∈ meshSet n1 n2 n3, data a.1 b.1 m a.2 b.2 * mean sgn n1 n2 n3 (bondLength at' (tau a.1) (tau b.1)) m k := by
  refine ⟨_, Verif.MPI.C02_parMap size hsize _ _, fun k a b => ?_⟩
  unfold bloch
  rw [List.map_map]
  set len := bondLength at' (tau a.1) (tau b.1) with hlen
  set G : V3 → ℂ := fun R => data a.1 b.1 (meshIndex sgn n1 n2 n3 R) a.2 b.2 * phase R k with hG
  have e1 : ((wigner size n1 n2 n3 at' tau tau (1e-7) sgn 2).map
      ((fun e => e.2 a b * phase e.1 k) ∘ constBlock sgn n1 n2 n3 true data)) =
      (wigner size n1 n2 n3 at' tau tau (1e-7) sgn 2).map fun e => G e.1 / (e.2 a.1 b.1 : ℂ) := by
    apply List.map_congr_left
    intro e _
    simp only [Function.comp, constBlock, if_true, hG]
    by_cases he : e.2 a.1 b.1 = 0
    · simp [he]
    · rw [if_pos he]; ring
  rw [e1, wigner_sum size hsize sgn hs n1 n2 n3 h1 h2 h3 at' tau tau a.1 b.1 G, ← hlen, ← List.sum_toFinset _ (nodup_mesh3 n1 n2 n3)]
  refine Finset.sum_congr rfl fun m hm => ?_
  have hm' := List.mem_toFinset.1 hm
  have hnd := sel_nodup sgn hs n1 n2 n3 h1 h2 h3 len m
  rw [← List.sum_toFinset _ hnd, mean, List.toFinset_card_of_nodup hnd, ← mul_div_assoc, Finset.mul_sum]
  congr 1
  refine Finset.sum_congr rfl fun R hR => ?_
  have hc : meshIndex sgn n1 n2 n3 R = m := sel_class sgn hs n1 n2 n3 len m hm' R (List.mem_toFinset.1 hR)
  simp only [hG, hc]

/-! ### Transforms of the samples -/

/-- Coefficient of the discrete Fourier transform for a mesh point. -/
noncomputable def coeff (sgn : Int) (n1 n2 n3 : Nat) (F : V3 → ℂ) (m : V3) : ℂ :=
  (∑ q ∈ meshSet n1 n2 n3, F q * star (om3 n1 n2 n3 (signed sgn m) q)) / ((n1 : ℂ) * n2 * n3)

theorem hoppings_coeff {n : Nat} (n1 n2 n3 : Nat) (H : V3 → Fin n → Fin n → ℂ) (a b : Fin n) (m : V3) (x y : Fin 1) :
    hoppings n1 n2 n3 H a b m x y = coeff 1 n1 n2 n3 (fun q => H q a b) m := by
  have hN : star ((n1 : ℂ) * n2 * n3) = (n1 : ℂ) * n2 * n3 := by simp
  rw [hoppings, ifftn_eq, star_div₀, hN, coeff, ← List.sum_toFinset _ (nodup_mesh3 n1 n2 n3), star_sum]
  congr 1
  refine Finset.sum_congr rfl fun q _ => ?_
  rw [star_mul', star_star, om3_comm n1 n2 n3 q m]
  simp [signed]

theorem ifftn_coeff (n1 n2 n3 : Nat) (F : V3 → ℂ) (m : V3) : ifftn n1 n2 n3 F m = coeff (-1) n1 n2 n3 F m := by
  rw [ifftn_eq, coeff, ← List.sum_toFinset _ (nodup_mesh3 n1 n2 n3)]
  congr 1
  refine Finset.sum_congr rfl fun q _ => ?_
  rw [om3_comm n1 n2 n3 q m]
  simp only [signed, om3, star_mul', om_star, neg_mul, one_mul, neg_neg]

theorem om3_neg (n1 n2 n3 : Nat) (R q : V3) : om3 n1 n2 n3 (-R) q = star (om3 n1 n2 n3 R q) := by
  simp only [om3, star_mul', om_star, Prod.fst_neg, Prod.snd_neg, neg_mul]

theorem om3_add (n1 n2 n3 : Nat) (R R' q : V3) : om3 n1 n2 n3 (R + R') q = om3 n1 n2 n3 R q * om3 n1 n2 n3 R' q := by
  simp only [om3, Prod.fst_add, Prod.snd_add, add_mul, om_add]
  ring

theorem om3_image (sgn : Int) (hs : sgn = 1 ∨ sgn = -1) (n1 n2 n3 : Nat) (h1 : 0 < n1) (h2 : 0 < n2) (h3 : 0 < n3) (ρ : V3 → V3) (m q : V3) :
    om3 n1 n2 n3 (signed sgn (image sgn n1 n2 n3 ρ m)) q = om3 n1 n2 n3 (ρ (signed sgn m)) q :=
  (om3_meshIndex sgn hs n1 n2 n3 h1 h2 h3 _ q).symm

theorem phase_neg (R : V3) (k : Fin 3 → ℝ) : phase (-R) k = star (phase R k) := by
  unfold phase
  rw [Complex.star_def, ← Complex.exp_conj]
  congr 1
  simp
  ring

theorem phase_neg_right (R : V3) (k : Fin 3 → ℝ) : phase R (-k) = star (phase R k) := by
  rw [← phase_neg]
  unfold phase
  congr 1
  simp

theorem phase_add (R R' : V3) (k : Fin 3 → ℝ) : phase (R + R') k = phase R k * phase R' k := by
  unfold phase
  rw [← Complex.exp_add]
  congr 1
  simp
  ring

theorem mean_neg (sgn : Int) (n1 n2 n3 : Nat) (len : V3 → ℝ) (m : V3) (k : Fin 3 → ℝ) :
    mean sgn n1 n2 n3 len m (-k) = star (mean sgn n1 n2 n3 len m k) := by
  unfold mean
  rw [star_div₀, star_sum, star_natCast]
  simp only [phase_neg_right]

/-! ### Models as sums over mesh points -/

theorem k2r_mean {n : Nat} (size : Nat) (hsize : 0 < size) (n1 n2 n3 : Nat) (h1 : 0 < n1) (h2 : 0 < n2) (h3 : 0 < n3)
    (at' : Fin 3 → Fin 3 → ℝ) (r : Fin n → Fin 3 → ℝ) (rydberg elRydberg : Bool) (Ry : ℝ) (H : V3 → Fin n → Fin n → ℂ) :
    ∃ l, k2r size n1 n2 n3 at' r true rydberg elRydberg true Ry H = some l ∧ ∀ k a b, bloch l k a b = unitFactor rydberg elRydberg Ry *
      ∑ m ∈ meshSet n1 n2 n3, coeff 1 n1 n2 n3 (fun q => H q a b) m * mean 1 n1 n2 n3 (bondLength at' (r a) (r b)) m k := by
  obtain ⟨l, hl, hb⟩ := shortRange_mean (c := 1) size hsize n1 n2 n3 h1 h2 h3 at' r 1 (Or.inl rfl) (hoppings n1 n2 n3 H)
  refine ⟨_, by rw [k2r, if_pos rfl, hl, Option.map_some], fun k a b => ?_⟩
  have := hb k (a, 0) (b, 0)
  simp only [hoppings_coeff] at this
  rw [← this]
  unfold bloch
  rw [List.map_map, ← List.sum_map_mul_left]
  congr 1
  apply List.map_congr_left
  intro e _
  cases rydberg <;> cases elRydberg <;> simp [unitFactor] <;> ring

theorem elel_k2r {n : Nat} (size n1 n2 n3 : Nat) (at' : Fin 3 → Fin 3 → ℝ) (r : Fin n → Fin 3 → ℝ) (W : V3 → Fin n → Fin n → ℂ) :
    elelQ2r size n1 n2 n3 at' r true W = k2r size n1 n2 n3 at' r true false false true 1 W := by
  simp [elelQ2r, k2r]

theorem phQ2r_mean {n : Nat} (size : Nat) (hsize : 0 < size) (n1 n2 n3 : Nat) (h1 : 0 < n1) (h2 : 0 < n2) (h3 : 0 < n3)
    (at' : Fin 3 → Fin 3 → ℝ) (r : Fin n → Fin 3 → ℝ) (M : Fin n → ℝ) (hM : ∀ a, 0 < M a) (divideMass phDivideMass : Bool)
    (D : V3 → Fin n × Fin 3 → Fin n × Fin 3 → ℂ) :
    ∃ l, phQ2r size n1 n2 n3 at' r M divideMass phDivideMass true D = some l ∧ ∀ q a b, bloch l q a b =
      massFactor divideMass phDivideMass (M a.1) (M b.1) *
        ∑ m ∈ meshSet n1 n2 n3, ((coeff (-1) n1 n2 n3 (fun q => D q a b) m).re : ℂ) *
          mean (-1) n1 n2 n3 (bondLength at' (r a.1) (r b.1)) m q := by
  obtain ⟨l, hl, hb⟩ := shortRange_mean (c := 3) size hsize n1 n2 n3 h1 h2 h3 at' r (-1) (Or.inr rfl) (phid n1 n2 n3 divideMass M D)
  refine ⟨_, by rw [phQ2r, hl, Option.map_some], fun q a b => ?_⟩
  have ha : (Real.sqrt (M a.1) : ℂ) ≠ 0 := by
    exact_mod_cast (Real.sqrt_pos.2 (hM a.1)).ne'
  have hb' : (Real.sqrt (M b.1) : ℂ) ≠ 0 := by
    exact_mod_cast (Real.sqrt_pos.2 (hM b.1)).ne'
  have hsc : bloch (l.map fun e => (e.1, if phDivideMass then byMass M e.2 else e.2)) q a b =
      (if phDivideMass then 1 / ((Real.sqrt (M a.1) : ℂ) * (Real.sqrt (M b.1) : ℂ)) else 1) * bloch l q a b := by
    unfold bloch
    rw [List.map_map, ← List.sum_map_mul_left]
    congr 1
    apply List.map_congr_left
    intro e _
    cases phDivideMass
    · simp
    · simp only [Function.comp, byMass, if_true]
      field_simp
  rw [hsc, hb, Finset.mul_sum, Finset.mul_sum]
  refine Finset.sum_congr rfl fun m _ => ?_
  simp only [phid, ifftn_coeff]
  cases divideMass <;> cases phDivideMass <;> simp [massFactor] <;> field_simp

/-! ### Hermiticity -/

theorem bondLength_neg (at' : Fin 3 → Fin 3 → ℝ) (ti tj : Fin 3 → ℝ) (R : V3) :
    bondLength at' tj ti (-R) = bondLength at' ti tj R := by
  unfold bondLength
  congr 1
  simp
  ring_nf

theorem maps_neg (sgn : Int) (n1 n2 n3 : Nat) (at' : Fin 3 → Fin 3 → ℝ) (ti tj : Fin 3 → ℝ)
    (h : Inside sgn n1 n2 n3 (bondLength at' ti tj)) (h' : Inside sgn n1 n2 n3 (bondLength at' tj ti)) :
    Maps sgn n1 n2 n3 (bondLength at' ti tj) (bondLength at' tj ti) (Equiv.neg V3) := by
  refine ⟨fun R R' => ?_, fun R => bondLength_neg at' ti tj R, fun R hR => h R hR, fun R hR => h' R hR⟩
  have key : ∀ x y : Int, -y - -x = -(y - x) := fun x y => by ring
  simp only [Equivalent, Equiv.neg_apply, Prod.fst_neg, Prod.snd_neg, key, dvd_neg]

theorem coeff_hermitian (sgn : Int) (hs : sgn = 1 ∨ sgn = -1) (n1 n2 n3 : Nat) (h1 : 0 < n1) (h2 : 0 < n2) (h3 : 0 < n3) (F F' : V3 → ℂ)
    (h : ∀ q, IsMesh n1 n2 n3 q → F' q = star (F q)) (m : V3) :
    coeff sgn n1 n2 n3 F' (image sgn n1 n2 n3 (Equiv.neg V3) m) = star (coeff sgn n1 n2 n3 F m) := by
  have hN : star ((n1 : ℂ) * n2 * n3) = (n1 : ℂ) * n2 * n3 := by simp
  rw [coeff, coeff, star_div₀, hN, star_sum]
  congr 1
  refine Finset.sum_congr rfl fun q hq => ?_
  rw [om3_image sgn hs n1 n2 n3 h1 h2 h3, Equiv.neg_apply, om3_neg, h q (mem_meshSet.1 hq), star_mul', star_star]

/-- A sum over mesh points with conjugate coefficients for opposite bonds. -/
theorem sum_hermitian (sgn : Int) (hs : sgn = 1 ∨ sgn = -1) (n1 n2 n3 : Nat) (h1 : 0 < n1) (h2 : 0 < n2) (h3 : 0 < n3)
    (at' : Fin 3 → Fin 3 → ℝ) (ti tj : Fin 3 → ℝ)
    (h : Inside sgn n1 n2 n3 (bondLength at' ti tj)) (h' : Inside sgn n1 n2 n3 (bondLength at' tj ti)) (T T' : V3 → ℂ)
    (hT : ∀ m, IsMesh n1 n2 n3 m → T' (image sgn n1 n2 n3 (Equiv.neg V3) m) = star (T m)) (k : Fin 3 → ℝ) :
    ∑ m ∈ meshSet n1 n2 n3, T' m * mean sgn n1 n2 n3 (bondLength at' tj ti) m k =
      star (∑ m ∈ meshSet n1 n2 n3, T m * mean sgn n1 n2 n3 (bondLength at' ti tj) m k) := by
  have hm := maps_neg sgn n1 n2 n3 at' ti tj h h'
  rw [← sum_image sgn hs n1 n2 n3 h1 h2 h3 (Equiv.neg V3) hm.equiv, star_sum]
  refine Finset.sum_congr rfl fun m hmm => ?_
  have hmm' := mem_meshSet.1 hmm
  rw [hT m hmm', hm.mean hs h1 h2 h3 m hmm', star_mul', mean, star_div₀, star_sum, star_natCast]
  simp only [Equiv.neg_apply, phase_neg]

/-- C171 (electrons, Hermiticity). If the sampled matrices are Hermitian, the Hamiltonian of the model set up by `k2r` is Hermitian at all wave
vectors. -/
theorem C171_k2r_hermitian_partial {n : Nat} (size : Nat) (hsize : 0 < size) (n1 n2 n3 : Nat) (h1 : 0 < n1) (h2 : 0 < n2) (h3 : 0 < n3)
    (at' : Fin 3 → Fin 3 → ℝ) (r : Fin n → Fin 3 → ℝ) (rydberg elRydberg : Bool) (Ry : ℝ) (H : V3 → Fin n → Fin n → ℂ)
    (hin : ∀ a b, Inside 1 n1 n2 n3 (bondLength at' (r a) (r b)))
    (hH : ∀ q, IsMesh n1 n2 n3 q → ∀ a b, H q b a = star (H q a b)) :
    ∃ l, k2r size n1 n2 n3 at' r true rydberg elRydberg true Ry H = some l ∧ ∀ k a b, bloch l k b a = star (bloch l k a b) := by
  obtain ⟨l, hl, hb⟩ := k2r_mean size hsize n1 n2 n3 h1 h2 h3 at' r rydberg elRydberg Ry H
  refine ⟨l, hl, fun k a b => ?_⟩
  have hu : star (unitFactor rydberg elRydberg Ry) = unitFactor rydberg elRydberg Ry := by
    cases rydberg <;> cases elRydberg <;> simp [unitFactor]
  rw [hb, hb, star_mul', hu]
  refine congrArg (fun z => unitFactor rydberg elRydberg Ry * z) ?_
  exact sum_hermitian 1 (Or.inl rfl) n1 n2 n3 h1 h2 h3 at' (r a) (r b) (hin a b) (hin b a) _ _
    (fun m _ => coeff_hermitian 1 (Or.inl rfl) n1 n2 n3 h1 h2 h3 _ _ (fun q hq => hH q hq a b) m) k

/-- C171 (Coulomb interaction, Hermiticity). -/
theorem C171_elel_hermitian_partial {n : Nat} (size : Nat) (hsize : 0 < size) (n1 n2 n3 : Nat) (h1 : 0 < n1) (h2 : 0 < n2) (h3 : 0 < n3)
    (at' : Fin 3 → Fin 3 → ℝ) (r : Fin n → Fin 3 → ℝ) (W : V3 → Fin n → Fin n → ℂ)
    (hin : ∀ a b, Inside 1 n1 n2 n3 (bondLength at' (r a) (r b)))
    (hW : ∀ q, IsMesh n1 n2 n3 q → ∀ a b, W q b a = star (W q a b)) :
    ∃ l, elelQ2r size n1 n2 n3 at' r true W = some l ∧ ∀ k a b, bloch l k b a = star (bloch l k a b) := by
  rw [elel_k2r]
  exact C171_k2r_hermitian_partial size hsize n1 n2 n3 h1 h2 h3 at' r false false 1 W hin hW

theorem massFactor_comm (d d' : Bool) (x y : ℝ) : massFactor d d' y x = massFactor d d' x y := by
  cases d <;> cases d' <;> simp [massFactor] <;> ring

theorem massFactor_star (d d' : Bool) (x y : ℝ) : star (massFactor d d' x y) = massFactor d d' x y := by
  cases d <;> cases d' <;> simp [massFactor]

/-- C171 (phonons, Hermiticity). If the sampled matrices are Hermitian, the dynamical matrix of the model set up by `q2r` is Hermitian at all wave
vectors. -/
theorem C171_ph_hermitian_partial {n : Nat} (size : Nat) (hsize : 0 < size) (n1 n2 n3 : Nat) (h1 : 0 < n1) (h2 : 0 < n2) (h3 : 0 < n3)
    (at' : Fin 3 → Fin 3 → ℝ) (r : Fin n → Fin 3 → ℝ) (M : Fin n → ℝ) (hM : ∀ a, 0 < M a) (divideMass phDivideMass : Bool)
    (D : V3 → Fin n × Fin 3 → Fin n × Fin 3 → ℂ) (hin : ∀ a b, Inside (-1) n1 n2 n3 (bondLength at' (r a) (r b)))
    (hD : ∀ q, IsMesh n1 n2 n3 q → ∀ a b, D q b a = star (D q a b)) :
    ∃ l, phQ2r size n1 n2 n3 at' r M divideMass phDivideMass true D = some l ∧ ∀ q a b, bloch l q b a = star (bloch l q a b) := by
  obtain ⟨l, hl, hb⟩ := phQ2r_mean size hsize n1 n2 n3 h1 h2 h3 at' r M hM divideMass phDivideMass D
  refine ⟨l, hl, fun q a b => ?_⟩
  rw [hb, hb, star_mul', massFactor_star, massFactor_comm]
  refine congrArg (fun z => massFactor divideMass phDivideMass (M a.1) (M b.1) * z) ?_
  refine sum_hermitian (-1) (Or.inr rfl) n1 n2 n3 h1 h2 h3 at' (r a.1) (r b.1) (hin a.1 b.1) (hin b.1 a.1) _ _ (fun m _ => ?_) q
  rw [coeff_hermitian (-1) (Or.inr rfl) n1 n2 n3 h1 h2 h3 _ _ (fun q hq => hD q hq a b) m]
  simp

/-! ### Time reversal -/

theorem negMesh_image (n1 n2 n3 : Nat) (q : V3) : negMesh n1 n2 n3 q = image 1 n1 n2 n3 (Equiv.neg V3) q := by
  simp [negMesh, image, meshIndex, signed]

theorem coeff_real (sgn : Int) (n1 n2 n3 : Nat) (h1 : 0 < n1) (h2 : 0 < n2) (h3 : 0 < n3) (F : V3 → ℂ)
    (h : ∀ q, IsMesh n1 n2 n3 q → F (negMesh n1 n2 n3 q) = star (F q)) (m : V3) :
    star (coeff sgn n1 n2 n3 F m) = coeff sgn n1 n2 n3 F m := by
  have hN : star ((n1 : ℂ) * n2 * n3) = (n1 : ℂ) * n2 * n3 := by simp
  have hneg : ∀ R R', Equivalent n1 n2 n3 R R' ↔ Equivalent n1 n2 n3 (Equiv.neg V3 R) (Equiv.neg V3 R') := by
    intro R R'
    have key : ∀ x y : Int, -y - -x = -(y - x) := fun x y => by ring
    simp only [Equivalent, Equiv.neg_apply, Prod.fst_neg, Prod.snd_neg, key, dvd_neg]
  rw [coeff, star_div₀, hN, star_sum]
  congr 1
  rw [← sum_image 1 (Or.inl rfl) n1 n2 n3 h1 h2 h3 (Equiv.neg V3) hneg (fun q => F q * star (om3 n1 n2 n3 (signed sgn m) q))]
  refine Finset.sum_congr rfl fun q hq => ?_
  have hq' := mem_meshSet.1 hq
  rw [← negMesh_image, h q hq', om3_negMesh n1 n2 n3 _ q hq', star_mul', star_star]

theorem sum_real (sgn : Int) (n1 n2 n3 : Nat) (len : V3 → ℝ) (T : V3 → ℂ) (hT : ∀ m, star (T m) = T m) (k : Fin 3 → ℝ) :
    ∑ m ∈ meshSet n1 n2 n3, T m * mean sgn n1 n2 n3 len m (-k) = star (∑ m ∈ meshSet n1 n2 n3, T m * mean sgn n1 n2 n3 len m k) := by
  rw [star_sum]
  refine Finset.sum_congr rfl fun m _ => ?_
  rw [star_mul', mean_neg, hT]

/-- C171 (electrons, time reversal). If the sampled matrices at opposite mesh points are complex conjugates, so are the Hamiltonians of the model at
all opposite wave vectors, for every geometry. -/
theorem C171_k2r_time_reversal {n : Nat} (size : Nat) (hsize : 0 < size) (n1 n2 n3 : Nat) (h1 : 0 < n1) (h2 : 0 < n2) (h3 : 0 < n3)
    (at' : Fin 3 → Fin 3 → ℝ) (r : Fin n → Fin 3 → ℝ) (rydberg elRydberg : Bool) (Ry : ℝ) (H : V3 → Fin n → Fin n → ℂ)
    (hH : ∀ q, IsMesh n1 n2 n3 q → ∀ a b, H (negMesh n1 n2 n3 q) a b = star (H q a b)) :
    ∃ l, k2r size n1 n2 n3 at' r true rydberg elRydberg true Ry H = some l ∧ ∀ k a b, bloch l (-k) a b = star (bloch l k a b) := by
  obtain ⟨l, hl, hb⟩ := k2r_mean size hsize n1 n2 n3 h1 h2 h3 at' r rydberg elRydberg Ry H
  refine ⟨l, hl, fun k a b => ?_⟩
  have hu : star (unitFactor rydberg elRydberg Ry) = unitFactor rydberg elRydberg Ry := by
    cases rydberg <;> cases elRydberg <;> simp [unitFactor]
  rw [hb, hb, star_mul', hu]
  refine congrArg (fun z => unitFactor rydberg elRydberg Ry * z) ?_
  exact sum_real 1 n1 n2 n3 _ _ (coeff_real 1 n1 n2 n3 h1 h2 h3 _ fun q hq => hH q hq a b) k

/-- C171 (Coulomb interaction, time reversal). -/
theorem C171_elel_time_reversal {n : Nat} (size : Nat) (hsize : 0 < size) (n1 n2 n3 : Nat) (h1 : 0 < n1) (h2 : 0 < n2) (h3 : 0 < n3)
    (at' : Fin 3 → Fin 3 → ℝ) (r : Fin n → Fin 3 → ℝ) (W : V3 → Fin n → Fin n → ℂ)
    (hW : ∀ q, IsMesh n1 n2 n3 q → ∀ a b, W (negMesh n1 n2 n3 q) a b = star (W q a b)) :
    ∃ l, elelQ2r size n1 n2 n3 at' r true W = some l ∧ ∀ k a b, bloch l (-k) a b = star (bloch l k a b) := by
  rw [elel_k2r]
  exact C171_k2r_time_reversal size hsize n1 n2 n3 h1 h2 h3 at' r false false 1 W hW

/-- C171 (phonons, time reversal). The dynamical matrices of the model set up by `q2r` at opposite wave vectors are complex conjugates, whatever the
sampled matrices are. -/
theorem C171_ph_time_reversal {n : Nat} (size : Nat) (hsize : 0 < size) (n1 n2 n3 : Nat) (h1 : 0 < n1) (h2 : 0 < n2) (h3 : 0 < n3)
    (at' : Fin 3 → Fin 3 → ℝ) (r : Fin n → Fin 3 → ℝ) (M : Fin n → ℝ) (hM : ∀ a, 0 < M a) (divideMass phDivideMass : Bool)
    (D : V3 → Fin n × Fin 3 → Fin n × Fin 3 → ℂ) :
    ∃ l, phQ2r size n1 n2 n3 at' r M divideMass phDivideMass true D = some l ∧ ∀ q a b, bloch l (-q) a b = star (bloch l q a b) := by
  obtain ⟨l, hl, hb⟩ := phQ2r_mean size hsize n1 n2 n3 h1 h2 h3 at' r M hM divideMass phDivideMass D
  refine ⟨l, hl, fun q a b => ?_⟩
  rw [hb, hb, star_mul', massFactor_star]
  refine congrArg (fun z => massFactor divideMass phDivideMass (M a.1) (M b.1) * z) ?_
  exact sum_real (-1) n1 n2 n3 _ _ (fun m => by simp) q

/-! ### Space groups -/

/-- Cartesian coordinates of a lattice vector. -/
def cart (at' : Fin 3 → Fin 3 → ℝ) (R : V3) (x : Fin 3) : ℝ := (R.1 : ℝ) * at' 0 x + (R.2.1 : ℝ) * at' 1 x + (R.2.2 : ℝ) * at' 2 x

/-- An operation of a space group: an isometry `O` that maps the lattice onto itself, followed by a translation by `τ`. The state `a'` is mapped to a
combination of the states `a` with coefficients `u a a'`, which are at images of the site of `a'`, displaced by the lattice vectors `t`. -/
structure Operation {σ α : Type} (at' : Fin 3 → Fin 3 → ℝ) (r : σ → Fin 3 → ℝ) (site : α → σ) where
  O : Fin 3 → Fin 3 → ℝ
  S : V3 ≃+ V3
  τ : Fin 3 → ℝ
  u : α → α → ℂ
  t : σ → σ → V3
  isometry : ∀ v : Fin 3 → ℝ, ∑ x, (∑ y, O x y * v y) ^ 2 = ∑ x, v x ^ 2
  lattice : ∀ R x, cart at' (S R) x = ∑ y, O x y * cart at' R y
  sites : ∀ a a', u a a' ≠ 0 → ∀ x, r (site a) x + cart at' (t (site a) (site a')) x = ∑ y, O x y * r (site a') y + τ x

/-- Map of the lattice vectors of bonds. -/
def Operation.bond {σ α : Type} {at' : Fin 3 → Fin 3 → ℝ} {r : σ → Fin 3 → ℝ} {site : α → σ} (g : Operation at' r site)
    (a b a' b' : α) : V3 ≃ V3 :=
  g.S.toEquiv.trans (Equiv.addRight (g.t (site b) (site b') - g.t (site a) (site a')))

/-- The operation maps the supercell lattice onto itself and shortest bonds of a certain kind to the search range. -/
structure Operation.Compatible {σ α : Type} {at' : Fin 3 → Fin 3 → ℝ} {r : σ → Fin 3 → ℝ} {site : α → σ}
    (g : Operation at' r site) (kind : α → α → Prop) (sgn : Int) (n1 n2 n3 : Nat) : Prop where
  supercell : ∀ R, Equivalent n1 n2 n3 0 R ↔ Equivalent n1 n2 n3 0 (g.S R)
  range : ∀ a b a' b', kind a b → g.u a a' ≠ 0 → g.u b b' ≠ 0 → ∀ R, Shortest sgn n1 n2 n3 (bondLength at' (r (site a')) (r (site b'))) R →
    InRange sgn n1 n2 n3 (g.bond a b a' b' R)
  range' : ∀ a b a' b', kind a b → g.u a a' ≠ 0 → g.u b b' ≠ 0 → ∀ R, Shortest sgn n1 n2 n3 (bondLength at' (r (site a)) (r (site b))) R →
    InRange sgn n1 n2 n3 ((g.bond a b a' b').symm R)

/-- `k'` is the image of the wave vector `k`. -/
def Operation.Rotated {σ α : Type} {at' : Fin 3 → Fin 3 → ℝ} {r : σ → Fin 3 → ℝ} {site : α → σ} (g : Operation at' r site)
    (k k' : Fin 3 → ℝ) : Prop := ∀ R, phase (g.S R) k' = phase R k

/-- Matrices at the wave vectors `k` and `k'` that are related by the operation. -/
def Operation.Related {σ α : Type} [Fintype α] {at' : Fin 3 → Fin 3 → ℝ} {r : σ → Fin 3 → ℝ} {site : α → σ}
    (g : Operation at' r site) (k' : Fin 3 → ℝ) (H H' : α → α → ℂ) : Prop :=
  ∀ a b, H' a b = ∑ a', ∑ b', g.u a a' * star (g.u b b') * phase (g.t (site b) (site b') - g.t (site a) (site a')) k' * H a' b'

theorem equivalent_sub (n1 n2 n3 : Nat) (R R' : V3) : Equivalent n1 n2 n3 R R' ↔ Equivalent n1 n2 n3 0 (R' - R) := by
  simp [Equivalent]

theorem Operation.maps {σ α : Type} {at' : Fin 3 → Fin 3 → ℝ} {r : σ → Fin 3 → ℝ} {site : α → σ} (g : Operation at' r site)
    {kind : α → α → Prop} {sgn : Int} {n1 n2 n3 : Nat} (hc : g.Compatible kind sgn n1 n2 n3) (a b a' b' : α) (hk : kind a b) (ha : g.u a a' ≠ 0) (hb : g.u b b' ≠ 0) :
    Maps sgn n1 n2 n3 (bondLength at' (r (site a')) (r (site b'))) (bondLength at' (r (site a)) (r (site b))) (g.bond a b a' b') := by
  refine ⟨fun R R' => ?_, fun R => ?_, hc.range a b a' b' hk ha hb, hc.range' a b a' b' hk ha hb⟩
  · rw [equivalent_sub, hc.supercell, equivalent_sub n1 n2 n3 (g.bond a b a' b' R)]
    have : g.bond a b a' b' R' - g.bond a b a' b' R = g.S (R' - R) := by
      rw [map_sub]
      exact add_sub_add_right_eq_sub _ _ _
    rw [this]
  · set w : Fin 3 → ℝ := fun x => cart at' R x + r (site b') x - r (site a') x with hw
    have key : ∀ x, cart at' (g.bond a b a' b' R) x + r (site b) x - r (site a) x = ∑ y, g.O x y * w y := by
      intro x
      have e1 := g.lattice R x
      have e2 := g.sites a a' ha x
      have e3 := g.sites b b' hb x
      have e4 : cart at' (g.bond a b a' b' R) x = cart at' (g.S R) x + cart at' (g.t (site b) (site b')) x - cart at' (g.t (site a) (site a')) x := by
        have : g.bond a b a' b' R = g.S R + (g.t (site b) (site b') - g.t (site a) (site a')) := rfl
        rw [this]
        simp [cart]
        ring
      have e5 : ∑ y, g.O x y * w y = (∑ y, g.O x y * cart at' R y) + (∑ y, g.O x y * r (site b') y) - ∑ y, g.O x y * r (site a') y := by
        rw [← Finset.sum_add_distrib, ← Finset.sum_sub_distrib]
        exact Finset.sum_congr rfl fun y _ => by rw [hw]; ring
      rw [e4, e5]
      linarith
    have hiso := g.isometry w
    have hl : ∀ (ti tj : Fin 3 → ℝ) (R : V3), bondLength at' ti tj R = Real.sqrt (∑ x, (cart at' R x + tj x - ti x) ^ 2) := by
      intro ti tj R
      rw [Fin.sum_univ_three]
      simp only [bondLength, cart, sq]
    rw [hl, hl]
    congr 1
    rw [← hiso]
    exact Finset.sum_congr rfl fun x _ => by rw [key x]

/-- A map of mesh points that rotates the wave vectors permutes them. -/
theorem rotate_sum (n1 n2 n3 : Nat) (S : V3 → V3) (κ : V3 → V3)
    (hκ : ∀ q, IsMesh n1 n2 n3 q → IsMesh n1 n2 n3 (κ q) ∧ ∀ R, phase (S R) (meshK n1 n2 n3 (κ q)) = phase R (meshK n1 n2 n3 q)) (F : V3 → ℂ) :
    ∑ q ∈ meshSet n1 n2 n3, F (κ q) = ∑ q ∈ meshSet n1 n2 n3, F q := by
  have hmap : Set.MapsTo κ (meshSet n1 n2 n3) (meshSet n1 n2 n3) := fun q hq => mem_meshSet.2 (hκ q (mem_meshSet.1 hq)).1
  have hinj : Set.InjOn κ (meshSet n1 n2 n3) := by
    intro q hq q' hq' he
    have m1 := mem_meshSet.1 hq
    have m2 := mem_meshSet.1 hq'
    have heq : ∀ R, om3 n1 n2 n3 R q = om3 n1 n2 n3 R q' := fun R => by
      rw [← phase_meshK, ← phase_meshK, ← (hκ q m1).2 R, ← (hκ q' m2).2 R, he]
    have o1 := orth3 n1 n2 n3 q q' m1 m2
    have o2 := orth3 n1 n2 n3 q' q' m2 m2
    simp only [heq] at o1
    rw [o2, if_pos rfl] at o1
    by_contra hne
    rw [if_neg hne] at o1
    obtain ⟨⟨a1, a2⟩, ⟨b1, b2⟩, c1, c2⟩ := m1
    have p1 : (n1 : ℂ) ≠ 0 := by exact_mod_cast (show n1 ≠ 0 by omega)
    have p2 : (n2 : ℂ) ≠ 0 := by exact_mod_cast (show n2 ≠ 0 by omega)
    have p3 : (n3 : ℂ) ≠ 0 := by exact_mod_cast (show n3 ≠ 0 by omega)
    exact mul_ne_zero (mul_ne_zero p1 p2) p3 o1
  exact Finset.sum_nbij κ hmap hinj (Finset.surjOn_of_injOn_of_card_le κ hmap hinj le_rfl) fun _ _ => rfl

theorem bond_symm {σ α : Type} {at' : Fin 3 → Fin 3 → ℝ} {r : σ → Fin 3 → ℝ} {site : α → σ} (g : Operation at' r site)
    (a b a' b' : α) (R : V3) : g.S ((g.bond a b a' b').symm R) + (g.t (site b) (site b') - g.t (site a) (site a')) = R :=
  (g.bond a b a' b').apply_symm_apply R

/-- Transforms of related samples. -/
theorem coeff_related {σ α : Type} [Fintype α] {at' : Fin 3 → Fin 3 → ℝ} {r : σ → Fin 3 → ℝ} {site : α → σ}
    (g : Operation at' r site) (sgn : Int) (hs : sgn = 1 ∨ sgn = -1) (n1 n2 n3 : Nat) (h1 : 0 < n1) (h2 : 0 < n2) (h3 : 0 < n3) (κ : V3 → V3)
    (hκ : ∀ q, IsMesh n1 n2 n3 q → IsMesh n1 n2 n3 (κ q) ∧ g.Rotated (meshK n1 n2 n3 q) (meshK n1 n2 n3 (κ q)))
    (H : V3 → α → α → ℂ) (hH : ∀ q, IsMesh n1 n2 n3 q → g.Related (meshK n1 n2 n3 (κ q)) (H q) (H (κ q))) (m : V3) (a b : α) :
    coeff sgn n1 n2 n3 (fun q => H q a b) m = ∑ a', ∑ b', g.u a a' * star (g.u b b') *
      coeff sgn n1 n2 n3 (fun q => H q a' b') (image sgn n1 n2 n3 (g.bond a b a' b').symm m) := by
  unfold coeff
  rw [← rotate_sum n1 n2 n3 g.S κ hκ]
  simp only [← mul_div_assoc, ← Finset.sum_div, Finset.mul_sum]
  congr 1
  rw [Finset.sum_congr rfl fun a' _ => Finset.sum_comm, Finset.sum_comm]
  refine Finset.sum_congr rfl fun q hq => ?_
  have hq' := mem_meshSet.1 hq
  rw [hH q hq' a b, Finset.sum_mul]
  refine Finset.sum_congr rfl fun a' _ => ?_
  rw [Finset.sum_mul]
  refine Finset.sum_congr rfl fun b' _ => ?_
  rw [om3_image sgn hs n1 n2 n3 h1 h2 h3]
  set t := g.t (site b) (site b') - g.t (site a) (site a') with ht
  set R := (g.bond a b a' b').symm (signed sgn m) with hR
  have e1 : signed sgn m = g.S R + t := (bond_symm g a b a' b' (signed sgn m)).symm
  have e2 := (hκ q hq').2 R
  rw [phase_meshK, phase_meshK] at e2
  have e3 : om3 n1 n2 n3 t (κ q) * star (om3 n1 n2 n3 t (κ q)) = 1 := by
    rw [← om3_neg, ← om3_add, add_neg_cancel]
    simp [om3, om_zero]
  rw [e1, om3_add, e2, phase_meshK, star_mul']
  linear_combination (g.u a a' * star (g.u b b') * H q a' b' * star (om3 n1 n2 n3 R q)) * e3

/-- Sums over mesh points with related coefficients. -/
theorem sum_related {σ α : Type} [Fintype α] {at' : Fin 3 → Fin 3 → ℝ} {r : σ → Fin 3 → ℝ} {site : α → σ}
    (g : Operation at' r site) (sgn : Int) (hs : sgn = 1 ∨ sgn = -1) (n1 n2 n3 : Nat) (h1 : 0 < n1) (h2 : 0 < n2) (h3 : 0 < n3)
    (hc : g.Compatible (fun _ _ => True) sgn n1 n2 n3) (T : α → α → V3 → ℂ) (hT : ∀ m a b, T a b m = ∑ a', ∑ b', g.u a a' * star (g.u b b') *
      T a' b' (image sgn n1 n2 n3 (g.bond a b a' b').symm m)) (k k' : Fin 3 → ℝ) (hk : g.Rotated k k') :
    g.Related k' (fun a b => ∑ m ∈ meshSet n1 n2 n3, T a b m * mean sgn n1 n2 n3 (bondLength at' (r (site a)) (r (site b))) m k)
      (fun a b => ∑ m ∈ meshSet n1 n2 n3, T a b m * mean sgn n1 n2 n3 (bondLength at' (r (site a)) (r (site b))) m k') := by
  intro a b
  dsimp only
  refine (Finset.sum_congr rfl fun m _ =>
    congrArg (fun z => z * mean sgn n1 n2 n3 (bondLength at' (r (site a)) (r (site b))) m k') (hT m a b)).trans ?_
  simp only [Finset.sum_mul]
  rw [Finset.sum_comm]
  refine Finset.sum_congr rfl fun a' _ => ?_
  rw [Finset.sum_comm]
  refine Finset.sum_congr rfl fun b' _ => ?_
  by_cases ha : g.u a a' = 0
  · simp [ha]
  by_cases hb : g.u b b' = 0
  · simp [hb]
  have hm := g.maps hc a b a' b' trivial ha hb
  rw [← sum_image sgn hs n1 n2 n3 h1 h2 h3 (g.bond a b a' b') hm.equiv, Finset.mul_sum]
  refine Finset.sum_congr rfl fun m hmm => ?_
  have hmm' := mem_meshSet.1 hmm
  rw [image_image sgn hs n1 n2 n3 h1 h2 h3 _ hm.equiv m hmm', hm.mean hs h1 h2 h3 m hmm', mean]
  have e : ∀ R, phase (g.bond a b a' b' R) k' = phase R k * phase (g.t (site b) (site b') - g.t (site a) (site a')) k' := fun R => by
    rw [← hk R, ← phase_add]
    rfl
  simp only [e]
  rw [← Finset.sum_mul]
  ring

/-- C171 (electrons, space groups). If the sampled matrices at each mesh point and its image are related by an operation of a space group, so are the
Hamiltonians of the model at all wave vectors. -/
theorem C171_k2r_space_group_partial {n : Nat} (size : Nat) (hsize : 0 < size) (n1 n2 n3 : Nat) (h1 : 0 < n1) (h2 : 0 < n2) (h3 : 0 < n3)
    (at' : Fin 3 → Fin 3 → ℝ) (r : Fin n → Fin 3 → ℝ) (rydberg elRydberg : Bool) (Ry : ℝ) (H : V3 → Fin n → Fin n → ℂ)
    (g : Operation at' r (fun a : Fin n => a)) (hc : g.Compatible (fun _ _ => True) 1 n1 n2 n3) (κ : V3 → V3)
    (hκ : ∀ q, IsMesh n1 n2 n3 q → IsMesh n1 n2 n3 (κ q) ∧ g.Rotated (meshK n1 n2 n3 q) (meshK n1 n2 n3 (κ q)))
    (hH : ∀ q, IsMesh n1 n2 n3 q → g.Related (meshK n1 n2 n3 (κ q)) (H q) (H (κ q))) :
    ∃ l, k2r size n1 n2 n3 at' r true rydberg elRydberg true Ry H = some l ∧
      ∀ k k', g.Rotated k k' → g.Related k' (bloch l k) (bloch l k') := by
  obtain ⟨l, hl, hb⟩ := k2r_mean size hsize n1 n2 n3 h1 h2 h3 at' r rydberg elRydberg Ry H
  refine ⟨l, hl, fun k k' hk a b => ?_⟩
  have := sum_related g 1 (Or.inl rfl) n1 n2 n3 h1 h2 h3 hc (fun a b => coeff 1 n1 n2 n3 (fun q => H q a b))
    (fun m a b => coeff_related g 1 (Or.inl rfl) n1 n2 n3 h1 h2 h3 κ hκ H hH m a b) k k' hk a b
  rw [hb]
  refine (congrArg (fun z => unitFactor rydberg elRydberg Ry * z) this).trans ?_
  simp only [hb, Finset.mul_sum]
  refine Finset.sum_congr rfl fun a' _ => Finset.sum_congr rfl fun b' _ => Finset.sum_congr rfl fun m _ => ?_
  ring

/-- C171 (Coulomb interaction, space groups). -/
theorem C171_elel_space_group_partial {n : Nat} (size : Nat) (hsize : 0 < size) (n1 n2 n3 : Nat) (h1 : 0 < n1) (h2 : 0 < n2) (h3 : 0 < n3)
    (at' : Fin 3 → Fin 3 → ℝ) (r : Fin n → Fin 3 → ℝ) (W : V3 → Fin n → Fin n → ℂ)
    (g : Operation at' r (fun a : Fin n => a)) (hc : g.Compatible (fun _ _ => True) 1 n1 n2 n3) (κ : V3 → V3)
    (hκ : ∀ q, IsMesh n1 n2 n3 q → IsMesh n1 n2 n3 (κ q) ∧ g.Rotated (meshK n1 n2 n3 q) (meshK n1 n2 n3 (κ q)))
    (hW : ∀ q, IsMesh n1 n2 n3 q → g.Related (meshK n1 n2 n3 (κ q)) (W q) (W (κ q))) :
    ∃ l, elelQ2r size n1 n2 n3 at' r true W = some l ∧ ∀ k k', g.Rotated k k' → g.Related k' (bloch l k) (bloch l k') := by
  rw [elel_k2r]
  exact C171_k2r_space_group_partial size hsize n1 n2 n3 h1 h2 h3 at' r false false 1 W g hc κ hκ hW

/-- C171 (phonons, space groups). The same for the dynamical matrix of the model set up by `q2r` if the coefficients are real (rotations of
displacements) and atoms are mapped to atoms of the same mass. -/
theorem C171_ph_space_group_partial {n : Nat} (size : Nat) (hsize : 0 < size) (n1 n2 n3 : Nat) (h1 : 0 < n1) (h2 : 0 < n2) (h3 : 0 < n3)
    (at' : Fin 3 → Fin 3 → ℝ) (r : Fin n → Fin 3 → ℝ) (M : Fin n → ℝ) (hM : ∀ a, 0 < M a) (divideMass phDivideMass : Bool)
    (D : V3 → Fin n × Fin 3 → Fin n × Fin 3 → ℂ) (g : Operation at' r (fun a : Fin n × Fin 3 => a.1)) (hc : g.Compatible (fun _ _ => True) (-1) n1 n2 n3)
    (hu : ∀ a a', star (g.u a a') = g.u a a') (hmass : ∀ a a', g.u a a' ≠ 0 → M a.1 = M a'.1) (κ : V3 → V3)
    (hκ : ∀ q, IsMesh n1 n2 n3 q → IsMesh n1 n2 n3 (κ q) ∧ g.Rotated (meshK n1 n2 n3 q) (meshK n1 n2 n3 (κ q)))
    (hD : ∀ q, IsMesh n1 n2 n3 q → g.Related (meshK n1 n2 n3 (κ q)) (D q) (D (κ q))) :
    ∃ l, phQ2r size n1 n2 n3 at' r M divideMass phDivideMass true D = some l ∧
      ∀ q q', g.Rotated q q' → g.Related q' (bloch l q) (bloch l q') := by
  obtain ⟨l, hl, hb⟩ := phQ2r_mean size hsize n1 n2 n3 h1 h2 h3 at' r M hM divideMass phDivideMass D
  refine ⟨l, hl, fun q q' hk a b => ?_⟩
  have hT : ∀ m a b, (((coeff (-1) n1 n2 n3 (fun q => D q a b) m).re : ℝ) : ℂ) = ∑ a', ∑ b', g.u a a' * star (g.u b b') *
      (((coeff (-1) n1 n2 n3 (fun q => D q a' b') (image (-1) n1 n2 n3 (g.bond a b a' b').symm m)).re : ℝ) : ℂ) := by
    intro m a b
    have hre : ∀ z : ℂ, ((z.re : ℝ) : ℂ) = (z + star z) / 2 := fun z => by
      rw [Complex.re_eq_add_conj, Complex.star_def]
    simp only [hre]
    rw [coeff_related g (-1) (Or.inr rfl) n1 n2 n3 h1 h2 h3 κ hκ D hD m a b, star_sum, ← Finset.sum_add_distrib, Finset.sum_div]
    refine Finset.sum_congr rfl fun a' _ => ?_
    rw [star_sum, ← Finset.sum_add_distrib, Finset.sum_div]
    refine Finset.sum_congr rfl fun b' _ => ?_
    rw [star_mul', star_mul', star_star, hu, hu]
    ring
  have := sum_related g (-1) (Or.inr rfl) n1 n2 n3 h1 h2 h3 hc (fun a b m => (((coeff (-1) n1 n2 n3 (fun q => D q a b) m).re : ℝ) : ℂ))
    hT q q' hk a b
  rw [hb]
  refine (congrArg (fun z => massFactor divideMass phDivideMass (M a.1) (M b.1) * z) this).trans ?_
  simp only [Finset.mul_sum]
  refine Finset.sum_congr rfl fun a' _ => Finset.sum_congr rfl fun b' _ => ?_
  by_cases ha : g.u a a' = 0
  · simp [ha]
  by_cases hb' : g.u b b' = 0
  · simp [hb']
  rw [hb, hmass a a' ha, hmass b b' hb', Finset.mul_sum, Finset.mul_sum]
  refine Finset.sum_congr rfl fun m _ => ?_
  ring

end Verif.Fourier
