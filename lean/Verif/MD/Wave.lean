import Verif.MD.Differentiable
import Verif.MD.RepeatInit
import Verif.Occ.Fermi

/-!
# Charge-density waves (C186)

A supercell never has a larger minimal free energy per unit cell than the unit cell, and if `hessian` of the driver for the unit cell has a negative
eigenvalue for a commensurate wave vector, `free_energy` of the driver for the supercell is lowered by the corresponding displacements. The model is that
of `MD/Model.lean`, `MD/Optimize.lean`, and `MD/RepeatInit.lean`.
-/

namespace Verif.MD.Wave

open Verif.Diag Verif.Diag.Derivatives
open Verif.MD.Optimize
open Verif.MD.Repeat
open Verif.MD.Bounds (solved_eq solved_diagonalized)
open Verif.MD.Differentiable
open Matrix Filter Topology

variable {n1 n2 n3 m1 m2 m3 nb nat nq nQ C : Nat} [NeZero n1] [NeZero n2] [NeZero n3] [NeZero m1] [NeZero m2] [NeZero m3]

/-- Specification: the same displacements in all cells. -/
def tile (u : X nat → ℝ) (i : X (C * nat)) : ℝ := u (displ.symm i).2

/-- Specification: displacements modulated by a wave with the phases `χ`, the amplitudes `w`, and the phase factor `z`. -/
noncomputable def wave (χ : Fin C → ℂ) (w : X nat → ℂ) (z : ℂ) (i : X (C * nat)) : ℝ := (z * χ (displ.symm i).1 * w (displ.symm i).2).re

theorem sum_atoms {β : Type} [AddCommMonoid β] (f : Fin (C * nat) → β) : ∑ na, f na = ∑ r : Fin C, ∑ a : Fin nat, f (split.symm (r, a)) := by
  rw [← Equiv.sum_comp split.symm f, Fintype.sum_prod_type]

theorem symm_atom (r : Fin C) (a : Fin nat) (x : Fin 3) : displ.symm (split.symm (r, a), x) = (r, (a, x)) := by
  rw [Equiv.symm_apply_eq]
  rfl

theorem center_tile (hC : C ≠ 0) (u : X nat → ℝ) : center (tile (C := C) u) = tile (center u) := by
  funext i
  obtain ⟨⟨r, a, x⟩, rfl⟩ := displ.surjective i
  unfold center tile
  rw [Equiv.symm_apply_apply, sum_atoms]
  have h1 : (displ (r, a, x) : X (C * nat)).2 = x := rfl
  simp only [h1, symm_atom, Finset.sum_const, Finset.card_univ, Fintype.card_fin, nsmul_eq_mul, Nat.cast_mul]
  rw [mul_div_mul_left _ _ (Nat.cast_ne_zero.2 hC)]

theorem center_wave (χ : Fin C → ℂ) (hχ : ∑ r, χ r = 0) (w : X nat → ℂ) (z : ℂ) : center (wave χ w z) = wave χ w z := by
  funext i
  have h1 : ∑ na, wave χ w z (na, i.2) = 0 := by
    rw [sum_atoms, Finset.sum_comm]
    refine Finset.sum_eq_zero fun a _ => ?_
    unfold wave
    simp only [symm_atom]
    rw [← Complex.re_sum, ← Finset.sum_mul, ← Finset.mul_sum, hχ, mul_zero, zero_mul, Complex.zero_re]
  unfold center
  rw [h1, zero_div, sub_zero]

/-- The electronic part of the Hessian for displacements equal in all cells is real. -/
theorem electronic_real (s : Driver n1 n2 n3 nb nat nq) (hq : s.q 0 = fun _ => 0) (eps : ℝ) (occ delta : ℝ → ℝ)
    (hd : ∀ x k, (s.d0 0 x k)ᴴ = s.d0 0 x k) (hsep : ∀ k m n, s.e k m ≠ s.e k n → eps < |s.e k m - s.e k n|) (x y : X nat) :
    (s.electronic eps occ delta 0 x y).im = 0 := by
  have ho : OnMesh (s.q 0) (0 : Mesh n1 n2 n3) := by rw [hq]; exact onMesh_zero
  have e1 : ∀ x y, ∑ k, sum2 (fun x y => ((staticFn eps s.kT occ delta x y : ℝ) : ℂ)) (s.e k) (s.e (k + 0)) (s.U k) (s.U (k + 0)) (s.d0 0 x k)ᴴ (s.d0 0 y k) =
      ∑ k, sum2 (fun x y => ((staticFn eps s.kT occ delta x y : ℝ) : ℂ)) (s.e k) (s.e (k + 0)) (s.U k) (s.U (k + 0)) (s.d0 0 y k)ᴴ (s.d0 0 x k) := by
    intro x y
    refine Finset.sum_congr rfl fun k _ => ?_
    simp only [add_zero]
    rw [sum2_flip, hd, hd]
    unfold sum2
    refine Finset.sum_congr rfl fun m _ => Finset.sum_congr rfl fun n _ => ?_
    refine congrArg₂ (· * ·) (congrArg Complex.ofReal ?_) rfl
    unfold staticFn
    by_cases hmn : s.e k m = s.e k n
    · rw [hmn]
    · rw [if_pos (hsep k m n hmn), if_pos (by rw [abs_sub_comm]; exact hsep k m n hmn), ← neg_sub (s.e k m), ← neg_sub (occ _), neg_div_neg_eq]
  have e2 : ∀ x y, star (∑ k, sum2 (fun x y => ((staticFn eps s.kT occ delta x y : ℝ) : ℂ)) (s.e k) (s.e (k + 0)) (s.U k) (s.U (k + 0)) (s.d0 0 x k)ᴴ
      (s.d0 0 y k)) = ∑ k, sum2 (fun x y => ((staticFn eps s.kT occ delta x y : ℝ) : ℂ)) (s.e k) (s.e (k + 0)) (s.U k) (s.U (k + 0)) (s.d0 0 y k)ᴴ
      (s.d0 0 x k) := by
    intro x y
    rw [star_sum]
    refine Finset.sum_congr rfl fun k _ => ?_
    unfold sum2
    rw [star_sum]
    refine Finset.sum_congr rfl fun m _ => ?_
    rw [star_sum]
    refine Finset.sum_congr rfl fun n _ => ?_
    have hm : ∀ (A B W : Matrix (Fin nb) (Fin nb) ℂ) (a b : Fin nb), star (mix A W B a b) = mix B Wᴴ A b a := by
      intro A B W a b
      unfold mix
      rw [← Matrix.conjTranspose_apply, conjTranspose_mul, conjTranspose_mul, conjTranspose_conjTranspose, Matrix.mul_assoc]
    rw [star_mul', star_mul', hm, hm, conjTranspose_conjTranspose, Complex.star_def, Complex.conj_ofReal, mul_comm (mix _ _ _ n m)]
  have e3 : ∀ x, star (∑ k, ∑ n, ((delta (s.e k n / s.kT) / s.kT : ℝ) : ℂ) * coupling s.U 0 (s.d0 0) x k n n) =
      ∑ k, ∑ n, ((delta (s.e k n / s.kT) / s.kT : ℝ) : ℂ) * coupling s.U 0 (s.d0 0) x k n n := by
    intro x
    rw [star_sum]
    refine Finset.sum_congr rfl fun k _ => ?_
    rw [star_sum]
    refine Finset.sum_congr rfl fun n _ => ?_
    rw [star_mul', Complex.star_def, Complex.conj_ofReal]
    congr 1
    unfold coupling mix
    rw [add_zero]
    show star _ = _
    rw [← Matrix.conjTranspose_apply, conjTranspose_mul, conjTranspose_mul, conjTranspose_conjTranspose, Matrix.mul_assoc, hd]
  rw [← Complex.conj_eq_iff_im, electronic_eq eps delta s 0 0 ho ho, if_pos rfl, map_add, map_mul]
  congr 1
  · congr 1
    · rw [map_div₀, map_ofNat, map_natCast]
    · exact (e2 x y).trans (e1 y x)
  · unfold fermiShift
    simp only
    have e4 : ∀ x, (starRingEnd ℂ) (∑ k, ∑ n, ((delta (s.e k n / s.kT) / s.kT : ℝ) : ℂ) * coupling s.U 0 (s.d0 0) x k n n) =
      ∑ k, ∑ n, ((delta (s.e k n / s.kT) / s.kT : ℝ) : ℂ) * coupling s.U 0 (s.d0 0) x k n n := e3
    simp only [map_mul, map_div₀, e4, Complex.conj_ofReal, map_ofNat, map_natCast]

section C186
variable [NeZero nb] {occ delta entropy : ℝ → ℝ} {fold : Mesh n1 n2 n3 → Mesh m1 m2 m3} {χ : Fin C → Mesh n1 n2 n3 → ℂ} (hf : Fold fold χ)
  {g : Mesh n1 n2 n3 → X nat → Mesh n1 n2 n3 → Matrix (Fin nb) (Fin nb) ℂ}
  {gS : Mesh m1 m2 m3 → Fin C × X nat → Mesh m1 m2 m3 → Matrix (Fin (C * nb)) (Fin (C * nb)) ℂ}
  {p : Fin (nq + 1) → Mesh n1 n2 n3} {P : Fin (nQ + 1) → Mesh m1 m2 m3}
  {s : Driver n1 n2 n3 nb nat nq} {S : Driver m1 m2 m3 (C * nb) (C * nat) nQ}
  (hrep : ∀ u e U mu eS US muS, Repeats fold χ g gS p P (s.move u e U mu) (S.move (tile u) eS US muS))
  {eigh : Matrix (Fin nb) (Fin nb) ℂ → (Fin nb → ℝ) × Matrix (Fin nb) (Fin nb) ℂ} {level : (Mesh n1 n2 n3 → Fin nb → ℝ) → ℝ}
  {eighS : Matrix (Fin (C * nb)) (Fin (C * nb)) ℂ → (Fin (C * nb) → ℝ) × Matrix (Fin (C * nb)) (Fin (C * nb)) ℂ}
  {levelS : (Mesh m1 m2 m3 → Fin (C * nb) → ℝ) → ℝ} (h : Externals occ eigh level s) (hS : Externals occ eighS levelS S)
  (ha : StrictAnti occ) (hkT : 0 < s.kT)

include hf hrep h hS ha hkT

theorem solved_tile (u : X nat → ℝ) : Repeats fold χ g gS p P (solved eigh level s u) (solved eighS levelS S (tile u)) ∧
    Diagonalized occ (solved eigh level s u) ∧ Diagonalized occ (solved eighS levelS S (tile u)) ∧
    (solved eighS levelS S (tile u)).mu = (solved eigh level s u).mu := by
  have d1 := solved_diagonalized h u
  have d2 := solved_diagonalized hS (tile u)
  have r := hrep (center u) (solved eigh level s u).e (solved eigh level s u).U (solved eigh level s u).mu (solved eighS levelS S (tile u)).e
    (solved eighS levelS S (tile u)).U (solved eighS levelS S (tile u)).mu
  rw [← center_tile hf.pos] at r
  exact ⟨r, d1, d2, C155_level hf r d1 d2 ha hkT (Nat.pos_of_ne_zero (NeZero.ne nb))⟩

/-- **C186**: the free energy of a supercell with the same displacements in all cells is that of the unit cell times the number of cells. -/
theorem C186_repeated (u : X nat → ℝ) : E eighS levelS occ entropy S (tile u) = C * E eigh level occ entropy s u := by
  obtain ⟨r, d1, d2, hmu⟩ := solved_tile hf hrep h hS ha hkT u
  exact C155_free_energy hf r d1 d2 hmu entropy

/-- **C186**: a larger cell never yields a larger minimal free energy per unit cell. -/
theorem C186_lower (v : X (C * nat) → ℝ) (hmin : ∀ v', E eighS levelS occ entropy S v ≤ E eighS levelS occ entropy S v') (u : X nat → ℝ) :
    E eighS levelS occ entropy S v / C ≤ E eigh level occ entropy s u := by
  have hC : (0 : ℝ) < C := Nat.cast_pos.2 (Nat.pos_of_ne_zero hf.pos)
  rw [div_le_iff₀ hC, mul_comm (E eigh level occ entropy s u), ← C186_repeated hf hrep h hS ha hkT u]
  exact hmin _

/-- Curvature of the free energy of the supercell. -/
theorem wave_form (eps : ℝ) (u : X nat → ℝ) (w : X nat → ℂ) (iq : Fin (nq + 1)) (hfold : fold (p iq) = 0) :
    ∑ i, ∑ j, star (χ (displ.symm i).1 (p iq) * w (displ.symm i).2) * (solved eighS levelS S (tile u)).hessian eps occ delta 0 i j *
      (χ (displ.symm j).1 (p iq) * w (displ.symm j).2) =
      C * ∑ x, ∑ y, star (w x) * (solved eigh level s u).hessian eps occ delta iq x y * w y := by
  obtain ⟨r, d1, d2, hmu⟩ := solved_tile hf hrep h hS ha hkT u
  have hh := C155_hessian hf r d1 d2 hmu eps delta iq 0 (hfold.trans ((r.Q0 0).2 rfl).symm)
  rw [sum_displ]
  have e1 : ∀ (a : Fin C) (x : X nat), ∑ j, star (χ (displ.symm (displ (a, x))).1 (p iq) * w (displ.symm (displ (a, x))).2) *
      (solved eighS levelS S (tile u)).hessian eps occ delta 0 (displ (a, x)) j * (χ (displ.symm j).1 (p iq) * w (displ.symm j).2) =
      ∑ y, star (w x) * (solved eigh level s u).hessian eps occ delta iq x y * w y := by
    intro a x
    rw [sum_displ, Finset.sum_comm]
    refine Finset.sum_congr rfl fun y _ => ?_
    simp only [Equiv.symm_apply_apply]
    calc _ = star (χ a (p iq) * w x) * (∑ t, χ t (p iq) * (solved eighS levelS S (tile u)).hessian eps occ delta 0 (displ (a, x)) (displ (t, y))) * w y := by
          rw [Finset.mul_sum, Finset.sum_mul]
          exact Finset.sum_congr rfl fun t _ => by ring
      _ = star (χ a (p iq)) * χ a (p iq) * (star (w x) * (solved eigh level s u).hessian eps occ delta iq x y * w y) := by
          rw [hh a x y, star_mul']
          ring
      _ = _ := by rw [hf.unit, one_mul]
  simp only [e1, Finset.sum_const, Finset.card_univ, Fintype.card_fin, nsmul_eq_mul]

/-- **C186**: if the Hessian for the unit cell in any structure has a negative curvature for a polarization `w` and a wave vector other than zero that is
commensurate with the supercell, the free energy of the supercell is lowered by displacements modulated with this wave vector, however small. -/
theorem C186_wave (ho : ∀ x, HasDerivAt occ (-delta x) x) (hs : ∀ x, HasDerivAt entropy (-x * delta x) x) (hdelta : ∀ x, 0 < delta x)
    (hc : Continuous delta) (hC : ∀ i j, S.C0 0 i j = S.C0 0 j i) (hR : ∀ i j, (S.C0 0 i j).im = 0) (eps : ℝ) (heps : 0 ≤ eps) (hq : S.q 0 = fun _ => 0)
    (u : X nat → ℝ) (hsep : ∀ k m n, (solved eighS levelS S (tile u)).e k m ≠ (solved eighS levelS S (tile u)).e k n →
      eps < |(solved eighS levelS S (tile u)).e k m - (solved eighS levelS S (tile u)).e k n|)
    (iq : Fin (nq + 1)) (hiq : iq ≠ 0) (hfold : fold (p iq) = 0) (w : X nat → ℂ)
    (hneg : (∑ x, ∑ y, star (w x) * (solved eigh level s u).hessian eps occ delta iq x y * w y).re < 0) :
    ∃ z : ℂ, ‖z‖ = 1 ∧ ∀ᶠ t in 𝓝[>] (0 : ℝ), E eighS levelS occ entropy S (fun i => tile u i + t * wave (fun r => χ r (p iq)) w z i) <
      C * E eigh level occ entropy s u := by
  obtain ⟨r, d1, d2, hmu⟩ := solved_tile hf hrep h hS ha hkT u
  have hkS : 0 < S.kT := by
    have := r.kT
    exact this ▸ hkT
  have hp : p iq ≠ 0 := fun h0 => hiq ((r.q0 iq).1 h0)
  have hχ : ∑ t, χ t (p iq) = 0 := by rw [sum_phases hf _ hfold, if_neg hp]
  have hcen : ∀ z, center (wave (fun r => χ r (p iq)) w z) = wave (fun r => χ r (p iq)) w z := fun z => center_wave _ hχ w z
  have hstat : ∀ z, ∑ i, G eighS levelS occ S (tile u) i * center (wave (fun r => χ r (p iq)) w z) i = 0 := by
    intro z
    rw [hcen, sum_displ, Finset.sum_comm]
    refine Finset.sum_eq_zero fun x _ => ?_
    have e1 : ∀ t, G eighS levelS occ S (tile u) (displ (t, x)) = G eigh level occ s u x := fun t => C155_forces hf r d1 d2 hmu t x
    unfold wave
    simp only [e1, Equiv.symm_apply_apply]
    rw [← Finset.mul_sum, ← Complex.re_sum, ← Finset.sum_mul, ← Finset.mul_sum, hχ, mul_zero, zero_mul, Complex.zero_re, mul_zero]
  have him : ∀ i j, ((solved eighS levelS S (tile u)).hessian eps occ delta 0 i j).im = 0 := by
    intro i j
    unfold Driver.hessian
    rw [Complex.add_im, electronic_real (solved eighS levelS S (tile u)) hq eps occ delta hS.coupling hsep]
    show 0 + (S.C0 0 i j).im = 0
    rw [hR, add_zero]
  have hsum : ∑ i, ∑ j, wave (fun r => χ r (p iq)) w 1 i * H eighS levelS occ delta eps S (tile u) i j * wave (fun r => χ r (p iq)) w 1 j +
      ∑ i, ∑ j, wave (fun r => χ r (p iq)) w (-Complex.I) i * H eighS levelS occ delta eps S (tile u) i j * wave (fun r => χ r (p iq)) w (-Complex.I) j < 0 := by
    have key := congrArg Complex.re (wave_form hf hrep h hS ha hkT eps u w iq hfold (delta := delta))
    have e1 : ((C : ℂ) * ∑ x, ∑ y, star (w x) * (solved eigh level s u).hessian eps occ delta iq x y * w y).re =
        C * (∑ x, ∑ y, star (w x) * (solved eigh level s u).hessian eps occ delta iq x y * w y).re := by
      rw [← Complex.ofReal_natCast, Complex.re_ofReal_mul]
    rw [e1] at key
    have hCpos : (0 : ℝ) < C := Nat.cast_pos.2 (Nat.pos_of_ne_zero hf.pos)
    refine lt_of_eq_of_lt ?_ (mul_neg_of_pos_of_neg hCpos hneg)
    rw [← key, Complex.re_sum, ← Finset.sum_add_distrib]
    refine Finset.sum_congr rfl fun i _ => ?_
    rw [Complex.re_sum, ← Finset.sum_add_distrib]
    refine Finset.sum_congr rfl fun j _ => ?_
    unfold H Driver.hessianGamma wave
    have h0 := him i j
    simp only [one_mul]
    generalize (solved eighS levelS S (tile u)).hessian eps occ delta 0 i j = A at h0 ⊢
    rw [mul_assoc (-Complex.I), mul_assoc (-Complex.I)]
    generalize χ (displ.symm i).1 (p iq) * w (displ.symm i).2 = a
    generalize χ (displ.symm j).1 (p iq) * w (displ.symm j).2 = b
    simp [Complex.mul_re, Complex.mul_im, h0]
  have hex : ∃ z : ℂ, ‖z‖ = 1 ∧ ∑ i, ∑ j, wave (fun r => χ r (p iq)) w z i * H eighS levelS occ delta eps S (tile u) i j *
      wave (fun r => χ r (p iq)) w z j < 0 := by
    by_cases h1 : ∑ i, ∑ j, wave (fun r => χ r (p iq)) w 1 i * H eighS levelS occ delta eps S (tile u) i j * wave (fun r => χ r (p iq)) w 1 j < 0
    · exact ⟨1, norm_one, h1⟩
    · refine ⟨-Complex.I, by simp, ?_⟩
      linarith
  obtain ⟨z, hz, hneg'⟩ := hex
  haveI : NeZero (C * nb) := ⟨Nat.mul_ne_zero hf.pos (NeZero.ne nb)⟩
  refine ⟨z, hz, ?_⟩
  rw [← C186_repeated hf hrep h hS ha hkT u]
  exact C185_unstable hS hkS ho hs hdelta hc (fun i j => by rw [hC]) eps heps hq (tile u) (wave (fun r => χ r (p iq)) w z) hsep (hstat z)
    (by rw [hcen]; exact hneg')

/-- **C186**: if no displacements of the supercell lower the free energy of a structure with the period of the unit cell, the Hessian has no negative
eigenvalues for all wave vectors other than zero that are commensurate with the supercell. -/
theorem C186_stable (ho : ∀ x, HasDerivAt occ (-delta x) x) (hs : ∀ x, HasDerivAt entropy (-x * delta x) x) (hdelta : ∀ x, 0 < delta x)
    (hc : Continuous delta) (hC : ∀ i j, S.C0 0 i j = S.C0 0 j i) (hR : ∀ i j, (S.C0 0 i j).im = 0) (eps : ℝ) (heps : 0 ≤ eps) (hq : S.q 0 = fun _ => 0)
    (u : X nat → ℝ) (hsep : ∀ k m n, (solved eighS levelS S (tile u)).e k m ≠ (solved eighS levelS S (tile u)).e k n →
      eps < |(solved eighS levelS S (tile u)).e k m - (solved eighS levelS S (tile u)).e k n|)
    (hmin : ∀ᶠ v in 𝓝 (tile u), C * E eigh level occ entropy s u ≤ E eighS levelS occ entropy S v)
    (iq : Fin (nq + 1)) (hiq : iq ≠ 0) (hfold : fold (p iq) = 0) (w : X nat → ℂ) :
    0 ≤ (∑ x, ∑ y, star (w x) * (solved eigh level s u).hessian eps occ delta iq x y * w y).re := by
  by_contra hn
  obtain ⟨z, -, hz⟩ := C186_wave (entropy := entropy) hf hrep h hS ha hkT ho hs hdelta hc hC hR eps heps hq u hsep iq hiq hfold w (not_le.1 hn)
  have hcont : Tendsto (fun (t : ℝ) (i : X (C * nat)) => tile u i + t * wave (fun r => χ r (p iq)) w z i) (𝓝[>] 0) (𝓝 (tile u)) := by
    have h1 : Continuous fun (t : ℝ) (i : X (C * nat)) => tile u i + t * wave (fun r => χ r (p iq)) w z i := by fun_prop
    have h2 := (h1.tendsto 0).mono_left (nhdsWithin_le_nhds (s := Set.Ioi (0 : ℝ)))
    have h3 : (fun i : X (C * nat) => tile u i + 0 * wave (fun r => χ r (p iq)) w z i) = tile u := by
      funext i
      ring
    rwa [h3] at h2
  obtain ⟨t, h1, h2⟩ := (hz.and (hcont.eventually hmin)).exists
  exact absurd h1 (not_lt.2 h2)

omit hf hrep h hS ha in
/-- **C186**: electrons soften phonons for all wave vectors and structures, with respect to the unscreened crystal. -/
theorem C186_soft (ha : Antitone occ) (hd : ∀ x, 0 ≤ delta x) (eps : ℝ) (u : X nat → ℝ) (iq : Fin (nq + 1)) (hiq : iq ≠ 0) (w : X nat → ℂ) :
    (∑ x, ∑ y, star (w x) * (solved eigh level s u).hessian eps occ delta iq x y * w y).re ≤ (∑ x, ∑ y, star (w x) * s.C0 iq x y * w y).re := by
  obtain ⟨r, hr, heq⟩ := C52_negative eps s.kT hkT occ delta ha hd none (fun _ hw => by cases hw) false (solved eigh level s u).e (s.q iq)
    ((solved eigh level s u).d iq) w
  have h1 : ∑ x, ∑ y, star (w x) * (solved eigh level s u).hessian eps occ delta iq x y * w y = (r : ℂ) + ∑ x, ∑ y, star (w x) * s.C0 iq x y * w y := by
    rw [← heq, ← Finset.sum_add_distrib]
    refine Finset.sum_congr rfl fun x _ => ?_
    rw [← Finset.sum_add_distrib]
    refine Finset.sum_congr rfl fun y _ => ?_
    unfold Driver.hessian Driver.electronic
    rw [if_neg hiq, add_zero, mul_add, add_mul]
    rfl
  rw [h1, Complex.add_re, Complex.ofReal_re]
  linarith

end C186

section driver
open Verif.Lattice (V3 Supercell detSpec)
open Verif.TB (Blocks dynMat)
open Verif.ElPh (Coupling)
open Verif.Diag.Derivatives

omit [NeZero n1] [NeZero n2] [NeZero n3] in
theorem point_zero : point (0 : Mesh m1 m2 m3) = fun _ => 0 := by
  funext x
  unfold point
  fin_cases x <;> simp

variable [NeZero nb] {N1 N2 N3 : V3} {s : Supercell} (hD : detSpec N1 N2 N3 ≠ 0) (hs : Verif.Lattice.supercell N1 N2 N3 = some s)
  {fold : Mesh n1 n2 n3 → Mesh m1 m2 m3} (hf : Folds N1 N2 N3 s.cells.length fold)
  {l : Blocks (Fin nb) ℂ} (hl : (l.map Prod.fst).Nodup) {lS : Blocks (Nat × Fin nb) ℂ} (hlS : Verif.TB.supercell s l = some lS)
  {ph ren : Blocks (X nat) ℝ} (hren : (ren.map Prod.fst).Nodup) {renS : Blocks (Nat × X nat) ℝ} (hrenS : Verif.TB.supercell s ren = some renS)
  {c : Coupling (X nat) (Fin nb)} (hg : Function.Injective c.Rg) (hk : Function.Injective c.Rk)
  {cS : Coupling (Nat × X nat) (Nat × Fin nb)} (hcS : Verif.ElPh.supercell s c = some cS)
  {p : Fin (nq + 1) → Mesh n1 n2 n3} {P : Fin (nQ + 1) → Mesh m1 m2 m3} (hp : ∀ iq, p iq = 0 ↔ iq = 0) (hP : ∀ iQ, P iQ = 0 ↔ iQ = 0)
  {eigh : Matrix (Fin nb) (Fin nb) ℂ → (Fin nb → ℝ) × Matrix (Fin nb) (Fin nb) ℂ} {level : (Mesh n1 n2 n3 → Fin nb → ℝ) → ℝ}
  {eighS : Matrix (Fin (s.cells.length * nb)) (Fin (s.cells.length * nb)) ℂ →
    (Fin (s.cells.length * nb) → ℝ) × Matrix (Fin (s.cells.length * nb)) (Fin (s.cells.length * nb)) ℂ}
  {levelS : (Mesh m1 m2 m3 → Fin (s.cells.length * nb) → ℝ) → ℝ} {eps : ℝ} {occ delta entropy : ℝ → ℝ} {unscreen : Bool} {kT n : ℝ}
  {unit : Driver n1 n2 n3 nb nat nq} (hunit : unit = driver eigh level eps occ delta unscreen kT n p l ph c)
  {sup : Driver m1 m2 m3 (s.cells.length * nb) (s.cells.length * nat) nQ}
  (hsup : sup = superDriver s.cells.length eighS levelS eps occ delta kT n P lS renS cS)
  (hq2r : ∀ iq, dynMat ren (point (p iq)) = unit.C0 iq)
  (h : Externals occ eigh level unit) (hS : Externals occ eighS levelS sup) (ha : StrictAnti occ) (hkT : 0 < kT)

include hD hs hf hl hlS hren hrenS hg hk hcS hp hP hunit hsup hq2r h hS ha hkT

theorem driver_repeats (u : X nat → ℝ) (e : Mesh n1 n2 n3 → Fin nb → ℝ) (U : Mesh n1 n2 n3 → Matrix (Fin nb) (Fin nb) ℂ) (mu : ℝ)
    (eS : Mesh m1 m2 m3 → Fin (s.cells.length * nb) → ℝ)
    (US : Mesh m1 m2 m3 → Matrix (Fin (s.cells.length * nb)) (Fin (s.cells.length * nb)) ℂ) (muS : ℝ) :
    Repeats fold (cellPhase s) (gUnit c) (gSuper cS) p P (unit.move u e U mu) (sup.move (tile u) eS US muS) := by
  have d1 : Diagonalized occ unit := by
    have h1 := solved_diagonalized h (fun _ => 0)
    rw [← solved_eq] at h1
    have h2 : solved eigh level unit (fun _ => 0) = unit := by
      rw [hunit]
      exact Bounds.solved_init eps unscreen kT n _ _ _ _
    rwa [h2] at h1
  have d2 : Diagonalized occ sup := by
    have h1 := solved_diagonalized hS (fun _ => 0)
    rw [← solved_eq] at h1
    have h2 : solved eighS levelS sup (fun _ => 0) = sup := by
      rw [hsup]
      exact Bounds.solved_init eps false kT _ _ _ _ _
    rwa [h2] at h1
  have r := repeats_pre hD hs hf hl hlS hren hrenS hg hk hcS hp hP hunit hsup hq2r
  have hmu : sup.mu = unit.mu := C155_level (unit := pre unit) (sup := pre sup) (folds_fold hD hs hf) r ⟨d1.eig, d1.unitary, d1.number⟩ ⟨d2.eig, d2.unitary, d2.number⟩ ha
    (by rw [hunit]; cases unscreen <;> exact hkT) (Nat.pos_of_ne_zero (NeZero.ne nb))
  exact C155_init hD hs hf hl hlS hren hrenS hg hk hcS hp hP hunit hsup hq2r d1 d2 hmu u e U mu eS US muS

/-- **C186**: relaxation in a supercell set up with the option `supercell` yields at most the free energy per unit cell of all structures described by
the driver for the unit cell. -/
theorem C186_driver (v : X (s.cells.length * nat) → ℝ) (hmin : ∀ v', E eighS levelS occ entropy sup v ≤ E eighS levelS occ entropy sup v')
    (u : X nat → ℝ) : E eighS levelS occ entropy sup v / s.cells.length ≤ E eigh level occ entropy unit u :=
  C186_lower (folds_fold hD hs hf) (driver_repeats hD hs hf hl hlS hren hrenS hg hk hcS hp hP hunit hsup hq2r h hS ha hkT) h hS ha
    (by rw [hunit]; cases unscreen <;> exact hkT) v hmin u

/-- **C186**: a negative eigenvalue of `hessian` of the driver for the unit cell shows that a commensurate supercell has a structure with a lower free
energy per unit cell. -/
theorem C186_supercell (ho : ∀ x, HasDerivAt occ (-delta x) x) (hent : ∀ x, HasDerivAt entropy (-x * delta x) x) (hdelta : ∀ x, 0 < delta x)
    (hc : Continuous delta) (hsym : ∀ i j, sup.C0 0 i j = sup.C0 0 j i) (heps : 0 ≤ eps) (u : X nat → ℝ)
    (hsep : ∀ k m n, (solved eighS levelS sup (tile u)).e k m ≠ (solved eighS levelS sup (tile u)).e k n →
      eps < |(solved eighS levelS sup (tile u)).e k m - (solved eighS levelS sup (tile u)).e k n|)
    (iq : Fin (nq + 1)) (hiq : iq ≠ 0) (hfold : fold (p iq) = 0) (w : X nat → ℂ)
    (hneg : (∑ x, ∑ y, star (w x) * (solved eigh level unit u).hessian eps occ delta iq x y * w y).re < 0) :
    ∃ v, E eighS levelS occ entropy sup v / s.cells.length < E eigh level occ entropy unit u := by
  have hC : (0 : ℝ) < s.cells.length := Nat.cast_pos.2 (Nat.pos_of_ne_zero (folds_fold hD hs hf).pos)
  have hP0 : P 0 = 0 := (hP 0).2 rfl
  obtain ⟨z, -, hz⟩ := C186_wave (entropy := entropy) (folds_fold hD hs hf)
    (driver_repeats hD hs hf hl hlS hren hrenS hg hk hcS hp hP hunit hsup hq2r h hS ha hkT) h hS ha (by rw [hunit]; cases unscreen <;> exact hkT)
    ho hent hdelta hc hsym (fun i j => by
      have e2 : sup.C0 0 i j = dynMat renS (point (P 0)) (index (displ.symm i)) (index (displ.symm j)) := by rw [hsup]; rfl
      rw [e2, hP0, point_zero]
      unfold dynMat Verif.Fourier.bloch
      rw [List.map_map, ← Complex.imCLM_apply, map_list_sum, List.map_map]
      refine List.sum_eq_zero fun x hx => ?_
      obtain ⟨b, -, rfl⟩ := List.mem_map.1 hx
      simp [Verif.Fourier.phase]) eps heps
    (by
      have e2 : sup.q 0 = point (P 0) := by rw [hsup]; rfl
      rw [e2, hP0, point_zero]) u hsep iq hiq hfold w hneg
  obtain ⟨t, ht⟩ := hz.exists
  refine ⟨fun i => tile u i + t * wave (fun r => cellPhase s r (p iq)) w z i, ?_⟩
  rw [div_lt_iff₀ hC, mul_comm (E eigh level occ entropy unit u)]
  exact ht

end driver

/-! ### Examples -/

section examples
open Verif.Lattice (V3 Supercell detSpec)
open Verif.TB (Blocks dynMat)
open Verif.Occ

theorem exists_eigh (m : Nat) : ∃ eigh : Matrix (Fin m) (Fin m) ℂ → (Fin m → ℝ) × Matrix (Fin m) (Fin m) ℂ, ∀ A : Matrix (Fin m) (Fin m) ℂ, Aᴴ = A →
    Diagonalizes A (eigh A).1 (eigh A).2 := by
  have h : ∀ A : Matrix (Fin m) (Fin m) ℂ, ∃ x : (Fin m → ℝ) × Matrix (Fin m) (Fin m) ℂ, Aᴴ = A → Diagonalizes A x.1 x.2 := by
    intro A
    by_cases hA : Aᴴ = A
    · obtain ⟨e, U, hU⟩ := exists_diagonalizes A hA
      exact ⟨(e, U), fun _ => hU⟩
    · exact ⟨(fun _ => 0, 1), fun h => absurd h hA⟩
  choose eigh h using h
  exact ⟨eigh, h⟩

theorem exists_level (kT n : ℝ) (hkT : 0 < kT) (h0 : 0 < n) (h2 : n < 2 * nb) : ∃ level : (Mesh n1 n2 n3 → Fin nb → ℝ) → ℝ, ∀ e,
    2 / ((n1 * n2 * n3 : Nat) : ℝ) * (∑ k, ∑ m, gauss ((e k m - level e) / kT)) = n := by
  have hN : (0 : ℝ) < ((n1 * n2 * n3 : Nat) : ℝ) :=
    Nat.cast_pos.2 (Nat.pos_of_ne_zero (Nat.mul_ne_zero (Nat.mul_ne_zero (NeZero.ne n1) (NeZero.ne n2)) (NeZero.ne n3)))
  have hc : Continuous gauss := continuous_iff_continuousAt.2 fun x => (C36_gauss x).1.continuousAt
  have hcard : Fintype.card (Mesh n1 n2 n3 × Fin nb) = n1 * n2 * n3 * nb := by simp [Mesh, mul_assoc]
  let φ : Fin (n1 * n2 * n3 * nb) ≃ Mesh n1 n2 n3 × Fin nb := (Fintype.equivFinOfCardEq hcard).symm
  have h : ∀ e : Mesh n1 n2 n3 → Fin nb → ℝ, ∃ mu, 2 / ((n1 * n2 * n3 : Nat) : ℝ) * (∑ k, ∑ m, gauss ((e k m - mu) / kT)) = n := by
    intro e
    obtain ⟨mu, hmu⟩ := exists_solution gauss hc C35_gauss.top C35_gauss.bot (fun i => e (φ i).1 (φ i).2) kT (n * ((n1 * n2 * n3 : Nat) : ℝ) / 2) hkT
      (by positivity) (by
        rw [Nat.cast_mul (n1 * n2 * n3) nb]
        nlinarith)
    refine ⟨mu, ?_⟩
    rw [← Fintype.sum_prod_type' (f := fun k m => gauss ((e k m - mu) / kT)), ← Equiv.sum_comp φ]
    unfold electrons at hmu
    rw [hmu]
    field_simp
  choose level h using h
  exact ⟨level, h⟩

/-- One atom per unit cell that couples to the occupation of one orbital (Holstein model): as the springs are unstable, the free energy is lowered by
doubling the cell. -/
theorem example_wave : ∃ (s : Supercell) (lS : Blocks (Nat × Fin 1) ℂ) (phS : Blocks (Nat × X 1) ℝ) (cS : Verif.ElPh.Coupling (Nat × X 1) (Nat × Fin 1))
    (eigh : Matrix (Fin 1) (Fin 1) ℂ → (Fin 1 → ℝ) × Matrix (Fin 1) (Fin 1) ℂ) (level : (Mesh 2 1 1 → Fin 1 → ℝ) → ℝ)
    (eighS : Matrix (Fin (s.cells.length * 1)) (Fin (s.cells.length * 1)) ℂ →
      (Fin (s.cells.length * 1) → ℝ) × Matrix (Fin (s.cells.length * 1)) (Fin (s.cells.length * 1)) ℂ)
    (levelS : (Mesh 1 1 1 → Fin (s.cells.length * 1) → ℝ) → ℝ) (v : X (s.cells.length * 1) → ℝ),
    Verif.Lattice.supercell (2, 0, 0) (0, 1, 0) (0, 0, 1) = some s ∧ Verif.TB.supercell s [((0, 0, 0), fun _ _ => 1)] = some lS ∧
    Verif.TB.supercell s [((0, 0, 0), fun x y => if x = y then -1 else 0)] = some phS ∧ Verif.ElPh.supercell s local3 = some cS ∧
    E eighS levelS gauss gaussEntropy
        (superDriver (m1 := 1) (m2 := 1) (m3 := 1) s.cells.length eighS levelS 0 gauss gaussDelta 1 1 (fun _ : Fin 1 => 0) lS phS cS) v / s.cells.length <
      E eigh level gauss gaussEntropy (driver eigh level 0 gauss gaussDelta false 1 1 (fun i : Fin 2 => (i, 0, 0))
        [((0, 0, 0), fun _ _ => 1)] [((0, 0, 0), fun x y => if x = y then -1 else 0)] local3) fun _ => 0 := by
  have hD : detSpec (2, 0, 0) (0, 1, 0) (0, 0, 1) ≠ 0 := by decide
  obtain ⟨s, hs, -⟩ := Verif.Lattice.C17_supercell _ _ _ hD
  have hf := C154_folds (n1 := 2) (n2 := 1) (n3 := 1) (m1 := 1) (m2 := 1) (m3 := 1) 2 1 1 rfl rfl rfl hs
  have hF := folds_fold hD hs hf
  have hC : s.cells.length = 2 := by
    have := hf.card
    omega
  let l : Blocks (Fin 1) ℂ := [((0, 0, 0), fun _ _ => 1)]
  have hl : (l.map Prod.fst).Nodup := by simp [l]
  obtain ⟨lS, hlS⟩ : ∃ lS, Verif.TB.supercell s l = some lS := ⟨_, Verif.TB.supercell_eq hD hs l hl⟩
  let ph : Blocks (X 1) ℝ := [((0, 0, 0), fun x y => if x = y then -1 else 0)]
  have hph : (ph.map Prod.fst).Nodup := by simp [ph]
  obtain ⟨phS, hphS⟩ : ∃ lS, Verif.TB.supercell s ph = some lS := ⟨_, Verif.TB.supercell_eq hD hs ph hph⟩
  obtain ⟨⟨cS, hcS⟩, -⟩ := Verif.ElPh.C78_defined _ _ _ hD s hs local3
  have hinj : Function.Injective local3.Rg := fun a b _ => Subsingleton.elim (α := Fin 1) a b
  have hinj' : Function.Injective local3.Rk := fun a b _ => Subsingleton.elim (α := Fin 1) a b
  obtain ⟨eigh, heigh⟩ := exists_eigh 1
  obtain ⟨eighS, heighS⟩ := exists_eigh (s.cells.length * 1)
  obtain ⟨level, hlevel⟩ := exists_level (n1 := 2) (n2 := 1) (n3 := 1) (nb := 1) 1 1 one_pos one_pos (by norm_num)
  obtain ⟨levelS, hlevelS⟩ := exists_level (n1 := 1) (n2 := 1) (n3 := 1) (nb := s.cells.length * 1) 1 (1 * (s.cells.length : ℝ)) one_pos
    (by rw [hC]; norm_num) (by rw [hC]; norm_num)
  let p : Fin 2 → Mesh 2 1 1 := fun i => (i, 0, 0)
  have hp : ∀ iq, p iq = 0 ↔ iq = 0 := by decide
  have hph0 : ∀ k, Verif.Fourier.phase (0, 0, 0) k = 1 := by
    intro R
    simp [Verif.Fourier.phase]
  have hH : ∀ k : Mesh 2 1 1, elUnit l k = 1 := by
    intro k
    ext a b
    rw [Subsingleton.elim a b, Matrix.one_apply_eq]
    simp [elUnit, Verif.Fourier.bloch, l, hph0]
  have hg1 : ∀ q x k, gUnit (n1 := 2) (n2 := 1) (n3 := 1) local3 q x k = 1 := by
    intro q x k
    ext a b
    rw [Subsingleton.elim a b, Matrix.one_apply_eq]
    show ∑ _i : Fin 1, ∑ _j : Fin 1, (1 : ℂ) * Verif.Fourier.phase (0, 0, 0) (point q) * Verif.Fourier.phase (0, 0, 0) (point k) = 1
    simp [hph0]
  have hHS : ∀ (K : Mesh 1 1 1) (r t : Fin s.cells.length) (a b : Fin 1), elSuper s.cells.length lS K (split.symm (r, a)) (split.symm (t, b)) =
      if t = r then 1 else 0 := by
    intro K r t a b
    refine unfold_unique hF K (fun t => elSuper s.cells.length lS K (split.symm (r, a)) (split.symm (t, b))) (fun t => if t = r then 1 else 0) ?_ t
    intro k hk
    subst hk
    have := el_fold hD hs hf l hl lS hlS k r a b
    rw [this, hH, Subsingleton.elim a b, Matrix.one_apply_eq]
    simp
  have hgS : ∀ (Q K : Mesh 1 1 1) (r i j : Fin s.cells.length) (x : X 1) (a b : Fin 1), gSuper cS Q (r, x) K (split.symm (i, a)) (split.symm (j, b)) =
      if r = i then if j = i then 1 else 0 else 0 := by
    intro Q K r i j x a b
    refine unfold_unique hF K (fun j => gSuper cS Q (r, x) K (split.symm (i, a)) (split.symm (j, b))) (fun j => if r = i then if j = i then 1 else 0 else 0) ?_ j
    intro k hk
    subst hk
    refine unfold_unique hF Q (fun r => ∑ j, cellPhase s j k * gSuper cS Q (r, x) _ (split.symm (i, a)) (split.symm (j, b)))
      (fun r => ∑ j, cellPhase s j k * if r = i then if j = i then 1 else 0 else 0) ?_ r
    intro q hq
    subst hq
    have := elph_fold hD hs hf local3 hinj hinj' cS hcS q k i x a b
    rw [hg1, Subsingleton.elim a b, Matrix.one_apply_eq] at this
    simp only [Finset.mul_sum, ← mul_assoc]
    rw [Subsingleton.elim a b]
    refine this.trans ?_
    simp
  let unit := driver eigh level 0 gauss gaussDelta false 1 1 p l ph local3
  let sup := superDriver (m1 := 1) (m2 := 1) (m3 := 1) s.cells.length eighS levelS 0 gauss gaussDelta 1 1 (fun _ : Fin 1 => 0) lS phS cS
  have hsym : ∀ i j, sup.C0 0 i j = sup.C0 0 j i := by
    have key : ∀ (r t : Fin s.cells.length) (x y : X 1), sup.C0 0 (displ (r, x)) (displ (t, y)) = if t = r ∧ x = y then -1 else 0 := by
      intro r t x y
      refine unfold_unique hF (0 : Mesh 1 1 1) (fun t => sup.C0 0 (displ (r, x)) (displ (t, y))) (fun t => if t = r ∧ x = y then -1 else 0) ?_ t
      intro k hk
      have := ph_fold hD hs hf ph hph phS hphS k r x y
      rw [hk] at this
      have e1 : ∀ t, sup.C0 0 (displ (r, x)) (displ (t, y)) = dynMat phS (point (0 : Mesh 1 1 1)) (index (r, x)) (index (t, y)) := by
        intro t
        show dynMat phS (point 0) (index (displ.symm (displ (r, x)))) (index (displ.symm (displ (t, y)))) = _
        rw [Equiv.symm_apply_apply, Equiv.symm_apply_apply]
      simp only [e1]
      rw [this]
      have e2 : dynMat ph (point k) x y = if x = y then -1 else 0 := by
        simp only [dynMat, Verif.Fourier.bloch, ph, hph0, List.map_cons, List.map_nil, List.sum_cons, List.sum_nil]
        split_ifs <;> simp
      rw [e2]
      by_cases hxy : x = y <;> simp [hxy]
    intro i j
    obtain ⟨⟨r, x⟩, rfl⟩ := displ.surjective i
    obtain ⟨⟨t, y⟩, rfl⟩ := displ.surjective j
    rw [key, key]
    simp only [eq_comm (a := t), eq_comm (a := x)]
  have h1 : Externals gauss eigh level unit := ⟨fun A hA => (heigh A hA).eig, fun A hA => (heigh A hA).unitary, hlevel, fun k => by
    show (elUnit l k)ᴴ = elUnit l k
    rw [hH, conjTranspose_one], fun x k => by
    show (gUnit local3 (p 0) x k)ᴴ = gUnit local3 (p 0) x k
    rw [hg1, conjTranspose_one]⟩
  have h2 : Externals gauss eighS levelS sup := ⟨fun A hA => (heighS A hA).eig, fun A hA => (heighS A hA).unitary, hlevelS, fun k => by
    show (elSuper s.cells.length lS k)ᴴ = elSuper s.cells.length lS k
    ext a b
    obtain ⟨⟨r, a⟩, rfl⟩ := split.symm.surjective a
    obtain ⟨⟨t, b⟩, rfl⟩ := split.symm.surjective b
    rw [conjTranspose_apply, hHS, hHS]
    simp only [eq_comm (a := r)]
    split <;> simp, fun i k => by
    obtain ⟨⟨r, x⟩, rfl⟩ := displ.surjective i
    have e1 : sup.d0 0 (displ (r, x)) k = gSuper cS 0 (r, x) k := by
      show gSuper cS 0 (displ.symm (displ (r, x))) k = _
      rw [Equiv.symm_apply_apply]
    rw [e1]
    ext a b
    obtain ⟨⟨i, a⟩, rfl⟩ := split.symm.surjective a
    obtain ⟨⟨j, b⟩, rfl⟩ := split.symm.surjective b
    rw [conjTranspose_apply, hgS, hgS]
    by_cases h1 : i = j
    · subst h1
      split <;> simp
    · simp [h1, Ne.symm h1]⟩
  have hx : ∀ x y : X 1, unit.C0 1 x y = if x = y then -1 else 0 := by
    intro x y
    show dynMat ph (point (p 1)) x y = _
    simp only [dynMat, Verif.Fourier.bloch, ph, hph0, List.map_cons, List.map_nil, List.sum_cons, List.sum_nil]
    split_ifs <;> simp
  obtain ⟨v, hv⟩ := C186_supercell (entropy := gaussEntropy) (unit := unit) (sup := sup) hD hs hf hl hlS hph hphS hinj hinj' hcS hp
    (fun iQ => ⟨fun _ => Subsingleton.elim (α := Fin 1) _ _, fun _ => rfl⟩) rfl rfl (fun iq => rfl) h1 h2 C35_gauss.anti one_pos (fun x => (C36_gauss x).1) C37_gauss
    gaussDelta_pos gaussDelta_continuous hsym le_rfl (fun _ => 0) (fun _ _ _ h => abs_pos.2 (sub_ne_zero.2 h)) 1 (by decide) (Subsingleton.elim _ _)
    (fun x => if x = (0, 0) then 1 else 0) (by
      refine (C186_soft (s := unit) (eigh := eigh) (level := level) one_pos C35_gauss.anti.antitone (fun x => (gaussDelta_pos x).le) 0 (fun _ => 0) 1
        (by decide) _).trans_lt ?_
      simp [hx])
  exact ⟨s, lS, phS, cS, eigh, level, eighS, levelS, v, hs, hlS, hphS, hcS, hv⟩

end examples

end Verif.MD.Wave
