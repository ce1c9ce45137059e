import Verif.Diag.SupercellMesh

/-!
# Phonon renormalization and supercell mapping commute (C154)
-/

namespace Verif.Diag.Derivatives

open Matrix
open Verif.Lattice (V3 vadd vsub Supercell detSpec latPoint)
open Verif.Fourier (phase bloch)
open Verif.TB (Blocks dynMat superK)
open Verif.ElPh (Coupling fourier)

/-! ### Specification -/

section
variable {n1 n2 n3 nb C : Nat} {α X : Type}

/-- Index of an orbital or displacement in a supercell model. -/
def index (p : Fin C × α) : Nat × α := (p.1, p.2)

/-- Hamiltonian on the mesh. -/
noncomputable def elUnit (l : Blocks (Fin nb) ℂ) (k : Mesh n1 n2 n3) : Matrix (Fin nb) (Fin nb) ℂ := fun a b => bloch l (point k) a b

/-- Hamiltonian of the supercell on the mesh. -/
noncomputable def elSuper (C : Nat) (l : Blocks (Nat × Fin nb) ℂ) (k : Mesh n1 n2 n3) : Matrix (Fin (C * nb)) (Fin (C * nb)) ℂ := fun a b =>
  bloch l (point k) (index (split a)) (index (split b))

/-- Coupling on the meshes of q and k points. -/
noncomputable def gUnit (c : Coupling X (Fin nb)) (q : Mesh n1 n2 n3) (x : X) (k : Mesh n1 n2 n3) : Matrix (Fin nb) (Fin nb) ℂ := fun a b =>
  fourier c (point q) (point k) x a b

/-- Coupling of the supercell on the meshes of q and k points. -/
noncomputable def gSuper (c : Coupling (Nat × X) (Nat × Fin nb)) (q : Mesh n1 n2 n3) (x : Fin C × X) (k : Mesh n1 n2 n3) :
    Matrix (Fin (C * nb)) (Fin (C * nb)) ℂ := fun a b => fourier c (point q) (point k) (index x) (index (split a)) (index (split b))

end

/-! ### Relations between unit cell and supercell -/

variable {N1 N2 N3 : V3} {s : Supercell} {nb : Nat} {X : Type} [DecidableEq X]
  {n1 n2 n3 m1 m2 m3 : Nat} [NeZero n1] [NeZero n2] [NeZero n3] [NeZero m1] [NeZero m2] [NeZero m3]
  (hD : detSpec N1 N2 N3 ≠ 0) (hs : Verif.Lattice.supercell N1 N2 N3 = some s) {fold : Mesh n1 n2 n3 → Mesh m1 m2 m3}
  (hf : Folds N1 N2 N3 s.cells.length fold)

include hD hs hf

omit [NeZero n1] [NeZero n2] [NeZero n3] [NeZero m1] [NeZero m2] [NeZero m3] [DecidableEq X] in
theorem el_fold (l : Blocks (Fin nb) ℂ) (hl : (l.map Prod.fst).Nodup) (lS : Blocks (Nat × Fin nb) ℂ) (hlS : Verif.TB.supercell s l = some lS)
    (k : Mesh n1 n2 n3) (r : Fin s.cells.length) (a b : Fin nb) :
    ∑ t, cellPhase s t k * elSuper s.cells.length lS (fold k) (split.symm (r, a)) (split.symm (t, b)) = cellPhase s r k * elUnit l k a b := by
  have h1 := Verif.TB.C42_folding N1 N2 N3 hD s hs l hl lS hlS (point k) r r.2 a b
  rw [Finset.sum_range] at h1
  unfold cellPhase elUnit
  rw [← h1]
  refine Finset.sum_congr rfl fun t _ => ?_
  rw [bloch_congr ((onMesh_iff _ _).1 (hf.point k))]
  unfold elSuper index
  simp only [Equiv.apply_symm_apply]

omit [NeZero n1] [NeZero n2] [NeZero n3] [NeZero m1] [NeZero m2] [NeZero m3] [DecidableEq X] in
theorem ph_fold (l : Blocks X ℝ) (hl : (l.map Prod.fst).Nodup) (lS : Blocks (Nat × X) ℝ) (hlS : Verif.TB.supercell s l = some lS)
    (q : Mesh n1 n2 n3) (r : Fin s.cells.length) (x y : X) :
    ∑ t, cellPhase s t q * dynMat lS (point (fold q)) (index (r, x)) (index (t, y)) = cellPhase s r q * dynMat l (point q) x y := by
  have h1 := Verif.TB.C42_folding_ph N1 N2 N3 hD s hs l hl lS hlS (point q) r r.2 x y
  rw [Finset.sum_range] at h1
  unfold cellPhase
  rw [← h1]
  refine Finset.sum_congr rfl fun t _ => ?_
  unfold dynMat
  rw [bloch_congr ((onMesh_iff _ _).1 (hf.point q))]
  rfl

omit [NeZero n1] [NeZero n2] [NeZero n3] [NeZero m1] [NeZero m2] [NeZero m3] [DecidableEq X] in
theorem elph_fold (c : Coupling X (Fin nb)) (hg : Function.Injective c.Rg) (hk : Function.Injective c.Rk)
    (cS : Coupling (Nat × X) (Nat × Fin nb)) (hcS : Verif.ElPh.supercell s c = some cS) :
    FoldsCoupling fold (cellPhase s) (gUnit c) (gSuper cS) := by
  intro q k i x a b
  have h1 := Verif.ElPh.C78_folding N1 N2 N3 hD s hs c hg hk cS hcS (point q) (point k) i i.2 x a b
  rw [Finset.sum_range] at h1
  unfold cellPhase gUnit
  rw [← h1]
  refine Finset.sum_congr rfl fun r _ => ?_
  rw [Finset.sum_range]
  refine Finset.sum_congr rfl fun j _ => ?_
  rw [fourier_congr ((onMesh_iff _ _).1 (hf.point q)) ((onMesh_iff _ _).1 (hf.point k))]
  unfold gSuper index
  simp only [Equiv.apply_symm_apply]

/-! ### C154 -/

variable {l : Blocks (Fin nb) ℂ} (hl : (l.map Prod.fst).Nodup) {lS : Blocks (Nat × Fin nb) ℂ} (hlS : Verif.TB.supercell s l = some lS)
  {c : Coupling X (Fin nb)} (hg : Function.Injective c.Rg) (hk : Function.Injective c.Rk)
  {cS : Coupling (Nat × X) (Nat × Fin nb)} (hcS : Verif.ElPh.supercell s c = some cS)
  {e : Mesh n1 n2 n3 → Fin nb → ℝ} {U : Mesh n1 n2 n3 → Matrix (Fin nb) (Fin nb) ℂ} (hU : ∀ k, Diagonalizes (elUnit l k) (e k) (U k))
  {eS : Mesh m1 m2 m3 → Fin (s.cells.length * nb) → ℝ} {US : Mesh m1 m2 m3 → Matrix (Fin (s.cells.length * nb)) (Fin (s.cells.length * nb)) ℂ}
  (hUS : ∀ K, Diagonalizes (elSuper s.cells.length lS K) (eS K) (US K))

include hl hlS hU hUS in
omit [DecidableEq X] in
theorem sum2_super (w : ℝ → ℝ → ℂ) {g G : Mesh n1 n2 n3 → X → Mesh n1 n2 n3 → Matrix (Fin nb) (Fin nb) ℂ}
    {gS GS : Mesh m1 m2 m3 → Fin s.cells.length × X → Mesh m1 m2 m3 → Matrix (Fin (s.cells.length * nb)) (Fin (s.cells.length * nb)) ℂ}
    (hg : FoldsCoupling fold (cellPhase s) g gS) (hG : FoldsCoupling fold (cellPhase s) G GS) (q : Mesh n1 n2 n3) (r : Fin s.cells.length)
    (x y : X) :
    ∑ t, cellPhase s t q * (2 / ((m1 * m2 * m3 : Nat) : ℂ) * ∑ K, sum2 w (eS K) (eS (K + fold q)) (US K) (US (K + fold q))
        (gS (fold q) (r, x) K)ᴴ (GS (fold q) (t, y) K)) =
      cellPhase s r q * (2 / ((n1 * n2 * n3 : Nat) : ℂ) * ∑ k, sum2 w (e k) (e (k + q)) (U k) (U (k + q)) (g q x k)ᴴ (G q y k)) := by
  have h := folds_fold hD hs hf
  obtain ⟨φ, -⟩ := exists_fibre (fold := fold) h.card
  have hd := fold_diagonalizes h φ hU (el_fold hD hs hf l hl lS hlS)
  have h1 := sum2_fold (e := e) (U := U) h φ w hg hG q r x y
  have h2 : ∀ K A B, sum2 w (eS K) (eS (K + fold q)) (US K) (US (K + fold q)) A B = sum2 w (foldE φ e K) (foldE φ e (K + fold q))
      (foldU φ (cellPhase s) U K) (foldU φ (cellPhase s) U (K + fold q)) A B := fun K A B =>
    sum2_gauge w (hd K) (hUS K) (hd (K + fold q)) (hUS (K + fold q)) A B
  simp only [h2]
  have hC : ((s.cells.length : ℕ) : ℂ) ≠ 0 := Nat.cast_ne_zero.2 h.pos
  have hm : ((m1 * m2 * m3 : Nat) : ℂ) ≠ 0 :=
    Nat.cast_ne_zero.2 (Nat.mul_ne_zero (Nat.mul_ne_zero (NeZero.ne m1) (NeZero.ne m2)) (NeZero.ne m3))
  have h3 : ∀ t, cellPhase s t q * (2 / ((m1 * m2 * m3 : Nat) : ℂ) * ∑ K, sum2 w (foldE φ e K) (foldE φ e (K + fold q))
      (foldU φ (cellPhase s) U K) (foldU φ (cellPhase s) U (K + fold q)) (gS (fold q) (r, x) K)ᴴ (GS (fold q) (t, y) K)) =
      2 / ((m1 * m2 * m3 : Nat) : ℂ) * (cellPhase s t q * ∑ K, sum2 w (foldE φ e K) (foldE φ e (K + fold q))
      (foldU φ (cellPhase s) U K) (foldU φ (cellPhase s) U (K + fold q)) (gS (fold q) (r, x) K)ᴴ (GS (fold q) (t, y) K)) := fun t => by ring
  rw [Finset.sum_congr rfl fun t _ => h3 t, ← Finset.mul_sum, h1, hf.card, Nat.cast_mul s.cells.length]
  generalize ((m1 * m2 * m3 : Nat) : ℂ) = x at hm ⊢
  field_simp

include hl hlS hU hUS hg hk hcS in
theorem selfEnergy_super (sym : Bool) (w : ℝ → ℝ → ℂ) (q : Mesh n1 n2 n3) (r : Fin s.cells.length) (x y : X) :
    ∑ t, cellPhase s t q * selfEnergy sym false (fun K m n => w (eS K n) (eS (K + fold q) m)) (fun _ _ => 0)
        (coupling US (fold q) (gSuper cS (fold q))) none (r, x) (t, y) =
      cellPhase s r q * selfEnergy sym false (fun k m n => w (e k n) (e (k + q) m)) (fun _ _ => 0) (coupling U q (gUnit c q)) none x y := by
  have key := sum2_super hD hs hf hl hlS hU hUS w (elph_fold hD hs hf c hg hk cS hcS) (elph_fold hD hs hf c hg hk cS hcS) q r x y
  have h1 := selfEnergy_pairs sym false w q e U (gUnit c q) none x y
  have h2 := fun t => selfEnergy_pairs sym false w (fold q) eS US (gSuper cS (fold q)) none (r, x) (t, y)
  simp only [Option.map_none, Bool.false_eq_true, false_and, if_false] at h1 h2
  rw [h1]
  simp only [h2]
  exact key

include hl hlS hU hUS hg hk hcS in
/-- C154: the static self-energy of the supercell is that of the unit cell, folded like the dynamical matrix. -/
theorem C154_self_energy (sym : Bool) (eps kT : ℝ) (occ delta : ℝ → ℝ) (win : Option Window) (q : Mesh n1 n2 n3) (r : Fin s.cells.length)
    (x y : X) :
    ∑ t, cellPhase s t q * selfEnergy sym false (fun K m n => (weights eps kT occ delta win eS (point (fold q)) K m n : ℂ)) (fun _ _ => 0)
        (coupling US (fold q) (gSuper cS (fold q))) none (r, x) (t, y) =
      cellPhase s r q * selfEnergy sym false (fun k m n => (weights eps kT occ delta win e (point q) k m n : ℂ)) (fun _ _ => 0)
        (coupling U q (gUnit c q)) none x y := by
  simp only [weights_fn _ _ _ _ _ _ _ _ (onMesh_point _)]
  exact selfEnergy_super hD hs hf hl hlS hg hk hcS hU hUS sym
    (fun x y => ((staticFn eps kT occ delta x y * envelopeFn win x y : ℝ) : ℂ)) q r x y

include hl hlS hU hUS hg hk hcS in
/-- C154: the same for finite frequencies. -/
theorem C154_dynamic (sym : Bool) (omega : ℂ) (kT : ℝ) (occ : ℝ → ℝ) (q : Mesh n1 n2 n3) (r : Fin s.cells.length) (x y : X) :
    ∑ t, cellPhase s t q * selfEnergy sym false (dfdeOmega omega eS (fun k n => occ (eS k n / kT)) (qIndices m1 m2 m3 (point (fold q))))
        (fun _ _ => 0) (coupling US (fold q) (gSuper cS (fold q))) none (r, x) (t, y) =
      cellPhase s r q * selfEnergy sym false (dfdeOmega omega e (fun k n => occ (e k n / kT)) (qIndices n1 n2 n3 (point q))) (fun _ _ => 0)
        (coupling U q (gUnit c q)) none x y := by
  have k1 : dfdeOmega omega e (fun k n => occ (e k n / kT)) (qIndices n1 n2 n3 (point q)) =
      fun k m n => dynamicFn omega kT occ (e k n) (e (k + q) m) := by
    funext k m n
    unfold dfdeOmega dynamicFn
    simp only [slice_q _ (point q) q _ (onMesh_point q)]
  have k2 : dfdeOmega omega eS (fun k n => occ (eS k n / kT)) (qIndices m1 m2 m3 (point (fold q))) =
      fun k m n => dynamicFn omega kT occ (eS k n) (eS (k + fold q) m) := by
    funext k m n
    unfold dfdeOmega dynamicFn
    simp only [slice_q _ (point (fold q)) (fold q) _ (onMesh_point (fold q))]
  rw [k1, k2]
  exact selfEnergy_super hD hs hf hl hlS hg hk hcS hU hUS sym (dynamicFn omega kT occ) q r x y

include hl hlS hU hUS hg hk hcS in
/-- C154: the correction for a fixed number of electrons contributes for `q = 0` of the unit cell only. -/
theorem C154_fermi_shift (kT : ℝ) (delta : ℝ → ℝ) (q : Mesh n1 n2 n3) (hq : fold q = 0) (r : Fin s.cells.length) (x y : X) :
    ∑ t, cellPhase s t q * fermiShift kT delta eS (coupling US 0 (gSuper cS 0)) (r, x) (t, y) =
      cellPhase s r q * if q = 0 then fermiShift kT delta e (coupling U 0 (gUnit c 0)) x y else 0 := by
  have h := folds_fold hD hs hf
  obtain ⟨φ, -⟩ := exists_fibre (fold := fold) h.card
  have hd := fold_diagonalizes h φ hU (el_fold hD hs hf l hl lS hlS)
  have hc := elph_fold hD hs hf c hg hk cS hcS
  have hf0 : fold 0 = 0 := by
    have := h.add 0 0
    rw [add_zero] at this
    exact left_eq_add.1 this
  have hx0 : ∀ r, cellPhase s r (0 : Mesh n1 n2 n3) = 1 := by
    intro r
    unfold cellPhase
    refine phase_of_congr_zero ⟨fun _ => 0, ?_⟩ _
    funext x
    unfold point
    fin_cases x <;> simp
  have hC : ((s.cells.length : ℕ) : ℂ) ≠ 0 := Nat.cast_ne_zero.2 h.pos
  have hm : ((m1 * m2 * m3 : Nat) : ℂ) ≠ 0 :=
    Nat.cast_ne_zero.2 (Nat.mul_ne_zero (Nat.mul_ne_zero (NeZero.ne m1) (NeZero.ne m2)) (NeZero.ne m3))
  have h1 : ∀ (p : Fin s.cells.length × X), ∑ K, ∑ n, ((delta (eS K n / kT) / kT : ℝ) : ℂ) * coupling US 0 (gSuper cS 0) p K n n =
      (∑ k, ∑ n, ((delta (e k n / kT) / kT : ℝ) : ℂ) * coupling U 0 (gUnit c 0) p.2 k n n) / s.cells.length := by
    rintro ⟨t, z⟩
    have h2 := sum1_fold (e := e) (U := U) h φ (fun x => ((delta (x / kT) / kT : ℝ) : ℂ)) hc t z
    have h3 : ∀ K, sum1 (fun x => ((delta (x / kT) / kT : ℝ) : ℂ)) (eS K) (US K) (gSuper cS 0 (t, z) K) =
        sum1 (fun x => ((delta (x / kT) / kT : ℝ) : ℂ)) (foldE φ e K) (foldU φ (cellPhase s) U K) (gSuper cS 0 (t, z) K) := fun K =>
      sum1_gauge _ (hd K) (hUS K) _
    rw [← Finset.sum_congr rfl fun K _ => h3 K] at h2
    unfold sum1 at h2
    unfold coupling
    simp only [add_zero]
    exact h2
  have h4 : ∑ K, ∑ n, delta (eS K n / kT) / kT = ∑ k, ∑ n, delta (e k n / kT) / kT := by
    rw [← sum0_fold (e := e) h φ fun x => delta (x / kT) / kT]
    refine Finset.sum_congr rfl fun K _ => ?_
    have h3 := sum1_gauge (fun x => ((delta (x / kT) / kT : ℝ) : ℂ)) (hd K) (hUS K) 1
    unfold sum1 mix at h3
    simp only [Matrix.mul_one, (hd K).unitary, (hUS K).unitary, Matrix.one_apply_eq, mul_one] at h3
    exact_mod_cast h3
  have h5 : ∑ t, cellPhase s t q = if q = 0 then ((s.cells.length : ℕ) : ℂ) else 0 := by
    have h6 := h.orth 0 q (hf0.trans hq.symm)
    simp only [hx0, star_one, one_mul] at h6
    rw [h6]
    by_cases hq0 : q = 0
    · rw [if_pos hq0, if_pos hq0.symm]
    · rw [if_neg hq0, if_neg fun h => hq0 h.symm]
  unfold fermiShift
  simp only [h1, h4]
  rw [← Finset.sum_mul, h5]
  by_cases hq0 : q = 0
  · rw [if_pos hq0, if_pos hq0, hq0, hx0, hf.card, Nat.cast_mul s.cells.length]
    generalize ((m1 * m2 * m3 : Nat) : ℂ) = x at hm ⊢
    field_simp
  · rw [if_neg hq0, if_neg hq0, zero_mul, mul_zero]

include hl hlS hU hUS in
omit [DecidableEq X] in
theorem sum0_super (w : ℝ → ℝ) : ∑ K, ∑ n, w (eS K n) = ∑ k, ∑ n, w (e k n) := by
  have h := folds_fold hD hs hf
  obtain ⟨φ, -⟩ := exists_fibre (fold := fold) h.card
  have hd := fold_diagonalizes h φ hU (el_fold hD hs hf l hl lS hlS)
  rw [← sum0_fold (e := e) h φ w]
  refine Finset.sum_congr rfl fun K _ => ?_
  have h3 := sum1_gauge (fun x => ((w x : ℝ) : ℂ)) (hd K) (hUS K) 1
  unfold sum1 mix at h3
  simp only [Matrix.mul_one, (hd K).unitary, (hUS K).unitary, Matrix.one_apply_eq, mul_one] at h3
  exact_mod_cast h3

include hl hlS hU hUS in
omit [DecidableEq X] in
/-- C154: the grand potential is extensive. -/
theorem C154_potential (kT : ℝ) (occ entropy : ℝ → ℝ) :
    grandPotential kT occ entropy eS = s.cells.length * grandPotential kT occ entropy e := by
  have h := folds_fold hD hs hf
  rw [grandPotential_eq, grandPotential_eq, sum0_super hD hs hf hl hlS hU hUS, hf.card, Nat.cast_mul s.cells.length]
  have hC : ((s.cells.length : ℕ) : ℝ) ≠ 0 := Nat.cast_ne_zero.2 h.pos
  have hm : ((m1 * m2 * m3 : Nat) : ℝ) ≠ 0 :=
    Nat.cast_ne_zero.2 (Nat.mul_ne_zero (Nat.mul_ne_zero (NeZero.ne m1) (NeZero.ne m2)) (NeZero.ne m3))
  generalize ((m1 * m2 * m3 : Nat) : ℝ) = x at hm ⊢
  field_simp

include hl hlS hU hUS hg hk hcS in
omit [DecidableEq X] in
/-- C154: forces on equivalent atoms are the same. -/
theorem C154_first (kT : ℝ) (occ : ℝ → ℝ) (r : Fin s.cells.length) (x : X) :
    (firstOrder kT occ eS fun K => mix (US K) (gSuper cS 0 (r, x) K) (US K)) =
      firstOrder kT occ e fun k => mix (U k) (gUnit c 0 x k) (U k) := by
  have h := folds_fold hD hs hf
  obtain ⟨φ, -⟩ := exists_fibre (fold := fold) h.card
  have hd := fold_diagonalizes h φ hU (el_fold hD hs hf l hl lS hlS)
  have hc := elph_fold hD hs hf c hg hk cS hcS
  have h2 := sum1_fold (e := e) (U := U) h φ (fun x => ((occ (x / kT) : ℝ) : ℂ)) hc r x
  have h3 : ∀ K, sum1 (fun x => ((occ (x / kT) : ℝ) : ℂ)) (eS K) (US K) (gSuper cS 0 (r, x) K) =
      sum1 (fun x => ((occ (x / kT) : ℝ) : ℂ)) (foldE φ e K) (foldU φ (cellPhase s) U K) (gSuper cS 0 (r, x) K) := fun K =>
    sum1_gauge _ (hd K) (hUS K) _
  rw [← Finset.sum_congr rfl fun K _ => h3 K] at h2
  rw [firstOrder_sum, firstOrder_sum, h2, hf.card, Nat.cast_mul s.cells.length]
  have hC : ((s.cells.length : ℕ) : ℂ) ≠ 0 := Nat.cast_ne_zero.2 h.pos
  have hm : ((m1 * m2 * m3 : Nat) : ℂ) ≠ 0 :=
    Nat.cast_ne_zero.2 (Nat.mul_ne_zero (Nat.mul_ne_zero (NeZero.ne m1) (NeZero.ne m2)) (NeZero.ne m3))
  generalize ((m1 * m2 * m3 : Nat) : ℂ) = x at hm ⊢
  field_simp

/-- Renormalized dynamical matrix: `D[q] += phonon_self_energy(...)`, `D[0] += phonon_self_energy_fermi_shift(...)`. -/
noncomputable def renormalized {n1 n2 n3 nb : Nat} {X : Type} [DecidableEq X] [NeZero n1] [NeZero n2] [NeZero n3] (shift : Bool)
    (eps kT : ℝ) (occ delta : ℝ → ℝ) (win : Option Window) (D : Mesh n1 n2 n3 → X → X → ℂ) (e : Mesh n1 n2 n3 → Fin nb → ℝ)
    (g : Mesh n1 n2 n3 → Cpl n1 n2 n3 nb X) (q : Mesh n1 n2 n3) (x y : X) : ℂ :=
  D q x y + selfEnergy true false (fun k m n => (weights eps kT occ delta win e (point q) k m n : ℂ)) (fun _ _ => 0) (g q) none x y +
    if shift ∧ q = 0 then fermiShift kT delta e (g 0) x y else 0

include hl hlS hU hUS hg hk hcS in
/-- C154: supercell mapping and renormalization commute: the supercell of the renormalized model has the same dynamical matrices as the
renormalized supercell. -/
theorem C154_commute (shift : Bool) (eps kT : ℝ) (occ delta : ℝ → ℝ) (win : Option Window) (ph ren : Blocks X ℝ)
    (hph : (ph.map Prod.fst).Nodup) (hren : (ren.map Prod.fst).Nodup) (phS renS : Blocks (Nat × X) ℝ)
    (hphS : Verif.TB.supercell s ph = some phS) (hrenS : Verif.TB.supercell s ren = some renS)
    (hr : ∀ q x y, dynMat ren (point q) x y = renormalized shift eps kT occ delta win (fun q : Mesh n1 n2 n3 => dynMat ph (point q)) e
      (fun q => coupling U q (gUnit c q)) q x y) (Q : Mesh m1 m2 m3) (p p' : Fin s.cells.length × X) :
    dynMat renS (point Q) (index p) (index p') = renormalized shift eps kT occ delta win
      (fun (Q : Mesh m1 m2 m3) p p' => dynMat phS (point Q) (index p) (index p')) eS (fun Q => coupling US Q (gSuper cS Q)) Q p p' := by
  have h := folds_fold hD hs hf
  obtain ⟨r, x⟩ := p
  obtain ⟨t, y⟩ := p'
  refine unfold_unique h Q (fun t => dynMat renS (point Q) (index (r, x)) (index (t, y))) (fun t => renormalized shift eps kT occ delta win
      (fun (Q : Mesh m1 m2 m3) p p' => dynMat phS (point Q) (index p) (index p')) eS (fun Q => coupling US Q (gSuper cS Q)) Q (r, x) (t, y)) ?_ t
  intro q hq
  subst hq
  rw [ph_fold hD hs hf ren hren renS hrenS q r x y, hr]
  unfold renormalized
  simp only [mul_add, Finset.sum_add_distrib]
  rw [ph_fold hD hs hf ph hph phS hphS q r x y, C154_self_energy hD hs hf hl hlS hg hk hcS hU hUS true eps kT occ delta win q r x y]
  congr 1
  have hf0 : fold 0 = 0 := by
    have := h.add 0 0
    rw [add_zero] at this
    exact left_eq_add.1 this
  cases shift with
  | false => simp
  | true =>
    by_cases hq : fold q = 0
    · simp only [hq, true_and, if_true]
      exact (C154_fermi_shift hD hs hf hl hlS hg hk hcS hU hUS kT delta q hq r x y).symm
    · have hq0 : q ≠ 0 := fun h0 => hq (by rw [h0, hf0])
      simp [hq, hq0]

omit hD hs hf [NeZero n1] [NeZero n2] [NeZero n3] in
/-- C154: supercells along the lattice vectors and meshes with numbers of points that are divided by the numbers of cells, as in
`nk //= N`, meet the requirements. -/
theorem C154_folds (L1 L2 L3 : Nat) [NeZero L1] [NeZero L2] [NeZero L3] (h1 : n1 = L1 * m1) (h2 : n2 = L2 * m2) (h3 : n3 = L3 * m3)
    (hs : Verif.Lattice.supercell (L1, 0, 0) (0, L2, 0) (0, 0, L3) = some s) :
    Folds (L1, 0, 0) (0, L2, 0) (0, 0, L3) s.cells.length
      fun k : Mesh n1 n2 n3 => ((Fin.ofNat m1 k.1, Fin.ofNat m2 k.2.1, Fin.ofNat m3 k.2.2) : Mesh m1 m2 m3) := by
  have hL1 := NeZero.ne L1
  have hL2 := NeZero.ne L2
  have hL3 := NeZero.ne L3
  have hdet : detSpec (L1, 0, 0) (0, L2, 0) (0, 0, L3) = ((L1 * L2 * L3 : ℕ) : ℤ) := by
    unfold detSpec
    push_cast
    ring
  have hD : detSpec (L1, 0, 0) (0, L2, 0) (0, 0, L3) ≠ 0 := by
    rw [hdet]
    exact_mod_cast Nat.mul_ne_zero (Nat.mul_ne_zero hL1 hL2) hL3
  obtain ⟨s', hs', -, -, -, -, hlen, -⟩ := Verif.Lattice.C17_supercell (L1, 0, 0) (0, L2, 0) (0, 0, L3) hD
  rw [hs, Option.some.injEq] at hs'
  subst hs'
  rw [hdet, Int.natAbs_natCast] at hlen
  have key : ∀ (n L m : Nat) [NeZero L] [NeZero m] (_ : n = L * m) (k : Fin n), (L : ℝ) * (2 * Real.pi * (((k : ℕ) : ℝ) / n)) =
      2 * Real.pi * ((((k : ℕ) % m : ℕ) : ℝ) / m + (((k : ℕ) / m : ℕ) : ℤ)) := by
    intro n L m _ _ h k
    have hL : (L : ℝ) ≠ 0 := Nat.cast_ne_zero.2 (NeZero.ne L)
    have hm : (m : ℝ) ≠ 0 := Nat.cast_ne_zero.2 (NeZero.ne m)
    have hk : (((k : ℕ) % m : ℕ) : ℝ) + m * (((k : ℕ) / m : ℕ) : ℝ) = (k : ℕ) := by exact_mod_cast Nat.mod_add_div (k : ℕ) m
    have hn : (n : ℝ) = L * m := by exact_mod_cast h
    rw [Int.cast_natCast, hn, ← hk]
    field_simp
  refine ⟨?_, ?_, ?_⟩
  · intro k
    refine ⟨![(((k.1 : ℕ) / m1 : ℕ) : ℤ), (((k.2.1 : ℕ) / m2 : ℕ) : ℤ), (((k.2.2 : ℕ) / m3 : ℕ) : ℤ)], ?_, ?_, ?_⟩
    · refine Eq.trans ?_ (key n1 L1 m1 h1 k.1)
      simp [Verif.TB.superK, point]
    · refine Eq.trans ?_ (key n2 L2 m2 h2 k.2.1)
      simp [Verif.TB.superK, point]
    · refine Eq.trans ?_ (key n3 L3 m3 h3 k.2.2)
      simp [Verif.TB.superK, point]
  · rintro ⟨a, b, c⟩
    have hlt : ∀ (n L m : Nat), n = L * m → L ≠ 0 → m ≤ n := fun n L m h hL => h ▸ Nat.le_mul_of_pos_left m (Nat.pos_of_ne_zero hL)
    refine ⟨(⟨a, lt_of_lt_of_le a.2 (hlt _ _ _ h1 hL1)⟩, ⟨b, lt_of_lt_of_le b.2 (hlt _ _ _ h2 hL2)⟩,
      ⟨c, lt_of_lt_of_le c.2 (hlt _ _ _ h3 hL3)⟩), ?_⟩
    simp
  · rw [hlen, h1, h2, h3]
    ring

include hl hlS hU in
omit [DecidableEq X] in
/-- The supercell can be diagonalized. -/
theorem exists_super : ∃ (eS : Mesh m1 m2 m3 → Fin (s.cells.length * nb) → ℝ)
    (US : Mesh m1 m2 m3 → Matrix (Fin (s.cells.length * nb)) (Fin (s.cells.length * nb)) ℂ),
    ∀ K, Diagonalizes (elSuper s.cells.length lS K) (eS K) (US K) := by
  have h := folds_fold hD hs hf
  obtain ⟨φ, -⟩ := exists_fibre (fold := fold) h.card
  exact ⟨_, _, fold_diagonalizes h φ hU (el_fold hD hs hf l hl lS hlS)⟩

/-! ### Example -/

omit hD hs hf in
/-- Local coupling to one displacement (Holstein model). -/
noncomputable def holstein : Coupling Unit (Fin 1) where
  ng := 1
  nk := 1
  Rg := fun _ => (0, 0, 0)
  Rk := fun _ => (0, 0, 0)
  data := fun _ _ _ _ _ => 1

omit hD hs hf in
/-- Hypotheses of `C154_commute`: Holstein model with two q points, supercell with two cells and only one q point. -/
example (kT : ℝ) (occ delta : ℝ → ℝ) : ∃ (s : Supercell) (fold : Mesh 2 1 1 → Mesh 1 1 1) (l : Blocks (Fin 1) ℂ)
    (lS : Blocks (Nat × Fin 1) ℂ) (cS : Coupling (Nat × Unit) (Nat × Fin 1)) (e : Mesh 2 1 1 → Fin 1 → ℝ)
    (U : Mesh 2 1 1 → Matrix (Fin 1) (Fin 1) ℂ) (eS : Mesh 1 1 1 → Fin (s.cells.length * 1) → ℝ)
    (US : Mesh 1 1 1 → Matrix (Fin (s.cells.length * 1)) (Fin (s.cells.length * 1)) ℂ) (ph ren : Blocks Unit ℝ) (phS renS : Blocks (Nat × Unit) ℝ),
    Verif.Lattice.supercell (2, 0, 0) (0, 1, 0) (0, 0, 1) = some s ∧ Folds (2, 0, 0) (0, 1, 0) (0, 0, 1) s.cells.length fold ∧
    (l.map Prod.fst).Nodup ∧ Verif.TB.supercell s l = some lS ∧ Function.Injective holstein.Rg ∧ Function.Injective holstein.Rk ∧
    Verif.ElPh.supercell s holstein = some cS ∧ (∀ k, Diagonalizes (elUnit l k) (e k) (U k)) ∧
    (∀ K, Diagonalizes (elSuper s.cells.length lS K) (eS K) (US K)) ∧ (ph.map Prod.fst).Nodup ∧ (ren.map Prod.fst).Nodup ∧
    Verif.TB.supercell s ph = some phS ∧ Verif.TB.supercell s ren = some renS ∧
    ∀ q x y, dynMat ren (point q) x y = renormalized true 0 kT occ delta none (fun q : Mesh 2 1 1 => dynMat ph (point q)) e
      (fun q => coupling U q (gUnit holstein q)) q x y := by
  have hD : detSpec (2, 0, 0) (0, 1, 0) (0, 0, 1) ≠ 0 := by decide
  obtain ⟨s, hs, -⟩ := Verif.Lattice.C17_supercell _ _ _ hD
  have hf := C154_folds (n1 := 2) (n2 := 1) (n3 := 1) (m1 := 1) (m2 := 1) (m3 := 1) 2 1 1 rfl rfl rfl hs
  let l : Blocks (Fin 1) ℂ := [((0, 0, 0), fun _ _ => 1)]
  have hl : (l.map Prod.fst).Nodup := by simp [l]
  obtain ⟨lS, hlS⟩ : ∃ lS, Verif.TB.supercell s l = some lS := ⟨_, Verif.TB.supercell_eq hD hs l hl⟩
  obtain ⟨⟨cS, hcS⟩, -⟩ := Verif.ElPh.C78_defined _ _ _ hD s hs holstein
  have hinj : Function.Injective holstein.Rg := fun a b _ => Subsingleton.elim (α := Fin 1) a b
  have hinj' : Function.Injective holstein.Rk := fun a b _ => Subsingleton.elim (α := Fin 1) a b
  have hph : ∀ R, phase (0, 0, 0) R = 1 := by
    intro R
    simp [Verif.Fourier.phase]
  let e : Mesh 2 1 1 → Fin 1 → ℝ := fun _ _ => 1
  let U : Mesh 2 1 1 → Matrix (Fin 1) (Fin 1) ℂ := fun _ => 1
  have hU : ∀ k, Diagonalizes (elUnit l k) (e k) (U k) := by
    intro k
    constructor
    · ext a b
      simp [elUnit, Verif.Fourier.bloch, l, e, U, hph, Matrix.diagonal, Subsingleton.elim a b]
    · simp [U]
  obtain ⟨eS, US, hUS⟩ := exists_super hD hs hf hl hlS hU
  let ph : Blocks Unit ℝ := [((0, 0, 0), fun _ _ => 1)]
  obtain ⟨d, hd⟩ : ∃ d : Mesh 2 1 1 → ℝ, ∀ q x y, (d q : ℂ) = renormalized true 0 kT occ delta none
      (fun q : Mesh 2 1 1 => dynMat ph (point q)) e (fun q => coupling U q (gUnit holstein q)) q x y := by
    have hg : ∀ q x k m n, coupling U q (gUnit holstein q) x k m n = 1 := by
      intro q x k m n
      simp [coupling, mix, U, gUnit, Verif.ElPh.fourier, holstein, hph]
    refine ⟨fun q => (1 : ℝ) + (2 / ((2 * 1 * 1 : Nat) : ℝ) * ∑ k, ∑ m, ∑ n, weights 0 kT occ delta none e (point q) k m n) +
      if q = 0 then 2 / ((2 * 1 * 1 : Nat) : ℝ) * (∑ k, ∑ n, delta (e k n / kT) / kT) * (((∑ k, ∑ n, delta (e k n / kT) / kT) /
        (∑ k, ∑ n, delta (e k n / kT) / kT)) * ((∑ k, ∑ n, delta (e k n / kT) / kT) / (∑ k, ∑ n, delta (e k n / kT) / kT))) else 0, ?_⟩
    intro q x y
    unfold renormalized selfEnergy contact piK fermiShift
    simp only [hg, dynMat, Verif.Fourier.bloch, ph, hph, List.map_cons, List.map_nil, List.sum_cons, List.sum_nil]
    by_cases hq : q = 0
    · simp [hq]
    · simp [hq]
  let ren : Blocks Unit ℝ := [((0, 0, 0), fun _ _ => (d (0, 0, 0) + d (1, 0, 0)) / 2), ((1, 0, 0), fun _ _ => (d (0, 0, 0) - d (1, 0, 0)) / 2)]
  have hphn : (ph.map Prod.fst).Nodup := by simp [ph]
  have hren : (ren.map Prod.fst).Nodup := by simp [ren]
  obtain ⟨phS, hphS⟩ : ∃ lS, Verif.TB.supercell s ph = some lS := ⟨_, Verif.TB.supercell_eq hD hs ph hphn⟩
  obtain ⟨renS, hrenS⟩ : ∃ lS, Verif.TB.supercell s ren = some lS := ⟨_, Verif.TB.supercell_eq hD hs ren hren⟩
  refine ⟨s, _, l, lS, cS, e, U, eS, US, ph, ren, phS, renS, hs, hf, hl, hlS, hinj, hinj', hcS, hU, hUS, hphn, hren, hphS, hrenS, ?_⟩
  intro q x y
  rw [← hd q x y]
  obtain ⟨a, b, c⟩ := q
  obtain rfl : b = 0 := Subsingleton.elim _ _
  obtain rfl : c = 0 := Subsingleton.elim _ _
  unfold dynMat Verif.Fourier.bloch
  simp only [ren, hph, List.map_cons, List.map_nil, List.sum_cons, List.sum_nil]
  fin_cases a
  · have h1 : phase (1, 0, 0) (point ((0, 0, 0) : Mesh 2 1 1)) = 1 := by
      simp [Verif.Fourier.phase, point]
    simp only [Fin.zero_eta, h1]
    push_cast
    ring
  · have h1 : phase (1, 0, 0) (point ((1, 0, 0) : Mesh 2 1 1)) = -1 := by
      unfold Verif.Fourier.phase point
      simp
      rw [show Complex.I * (2 * (Real.pi : ℂ) * 2⁻¹) = Real.pi * Complex.I by ring]
      exact Complex.exp_pi_mul_I
    simp only [Fin.mk_one, h1]
    push_cast
    ring

end Verif.Diag.Derivatives
