import Verif.Diag.Supercell

/-!
# Meshes of wave vectors of unit cell and supercell (C154)
-/

namespace Verif.Diag.Derivatives

open Matrix
open Verif.Lattice (V3 vadd vsub Supercell detSpec latPoint)
open Verif.Fourier (phase bloch)
open Verif.TB (superK phase_superK phase_add phase_periodic norm_phase tsc tsc_spec tsc_iff)

/-! ### Specification -/

/-- Specification: points of a uniform mesh, in units of the reciprocal lattice vectors divided by 2 pi. -/
noncomputable def point {n1 n2 n3 : Nat} (k : Mesh n1 n2 n3) : Fin 3 → ℝ := fun x =>
  2 * Real.pi * ![((k.1 : ℕ) : ℝ) / n1, ((k.2.1 : ℕ) : ℝ) / n2, ((k.2.2 : ℕ) : ℝ) / n3] x

/-- Specification: equal up to reciprocal lattice vectors. -/
def Congr (k k' : Fin 3 → ℝ) : Prop := ∃ z : Fin 3 → ℤ, k = fun x => k' x + 2 * Real.pi * z x

theorem Congr.symm {k k' : Fin 3 → ℝ} (h : Congr k k') : Congr k' k := by
  obtain ⟨z, rfl⟩ := h
  refine ⟨fun x => -z x, ?_⟩
  funext x
  push_cast
  ring

theorem Congr.trans {k k' k'' : Fin 3 → ℝ} (h : Congr k k') (h' : Congr k' k'') : Congr k k'' := by
  obtain ⟨z, rfl⟩ := h
  obtain ⟨z', rfl⟩ := h'
  refine ⟨fun x => z' x + z x, ?_⟩
  funext x
  push_cast
  ring

theorem Congr.add {k k' l l' : Fin 3 → ℝ} (h : Congr k k') (h' : Congr l l') : Congr (fun x => k x + l x) fun x => k' x + l' x := by
  obtain ⟨z, rfl⟩ := h
  obtain ⟨z', rfl⟩ := h'
  refine ⟨fun x => z x + z' x, ?_⟩
  funext x
  push_cast
  ring

theorem Congr.superK {N1 N2 N3 : V3} {k k' : Fin 3 → ℝ} (h : Congr k k') : Congr (superK N1 N2 N3 k) (superK N1 N2 N3 k') := by
  obtain ⟨z, rfl⟩ := h
  refine ⟨fun x => (![N1, N2, N3] x).1 * z 0 + (![N1, N2, N3] x).2.1 * z 1 + (![N1, N2, N3] x).2.2 * z 2, ?_⟩
  funext x
  unfold Verif.TB.superK
  push_cast
  ring

theorem superK_add (N1 N2 N3 : V3) (k k' : Fin 3 → ℝ) :
    superK N1 N2 N3 (fun x => k x + k' x) = fun x => superK N1 N2 N3 k x + superK N1 N2 N3 k' x := by
  funext x
  unfold Verif.TB.superK
  ring

theorem phase_congr {k k' : Fin 3 → ℝ} (h : Congr k k') (R : V3) : phase R k = phase R k' := by
  obtain ⟨z, rfl⟩ := h
  exact phase_periodic R k' z

theorem bloch_congr {α : Type} {k k' : Fin 3 → ℝ} (h : Congr k k') (l : List (V3 × (α → α → ℂ))) (a b : α) :
    bloch l k a b = bloch l k' a b := by
  unfold Verif.Fourier.bloch
  simp only [phase_congr h]

theorem fourier_congr {X O : Type} {q q' k k' : Fin 3 → ℝ} (hq : Congr q q') (hk : Congr k k') (c : Verif.ElPh.Coupling X O) (x : X)
    (a b : O) : Verif.ElPh.fourier c q k x a b = Verif.ElPh.fourier c q' k' x a b := by
  unfold Verif.ElPh.fourier
  simp only [phase_congr hq, phase_congr hk]

section
variable {n1 n2 n3 : Nat} [NeZero n1] [NeZero n2] [NeZero n3]

omit [NeZero n1] [NeZero n2] [NeZero n3] in
theorem onMesh_iff (q : Fin 3 → ℝ) (j : Mesh n1 n2 n3) : OnMesh q j ↔ Congr q (point j) := by
  unfold OnMesh Congr
  refine exists_congr fun z => ?_
  constructor
  · rintro ⟨h0, h1, h2⟩
    funext x
    unfold point
    fin_cases x
    · simpa [mul_add] using h0
    · simpa [mul_add] using h1
    · simpa [mul_add] using h2
  · intro h
    refine ⟨?_, ?_, ?_⟩
    · simpa [mul_add, point] using congrFun h 0
    · simpa [mul_add, point] using congrFun h 1
    · simpa [mul_add, point] using congrFun h 2

omit [NeZero n1] [NeZero n2] [NeZero n3] in
theorem onMesh_point (j : Mesh n1 n2 n3) : OnMesh (point j) j := (onMesh_iff _ j).2 ⟨fun _ => 0, by simp⟩

theorem onMesh_unique {q : Fin 3 → ℝ} {i j : Mesh n1 n2 n3} (hi : OnMesh q i) (hj : OnMesh q j) : i = j := by
  have h1 := qIndices_mesh q i hi
  rw [qIndices_mesh q j hj] at h1
  simp only [Prod.mk.injEq] at h1
  exact Prod.ext (Fin.ext h1.1.symm) (Prod.ext (Fin.ext h1.2.1.symm) (Fin.ext h1.2.2.symm))

theorem frac_add (n : Nat) [NeZero n] (a b : Fin n) : ∃ z : ℤ, (((a + b : Fin n) : ℕ) : ℝ) / n = ((a : ℕ) : ℝ) / n + ((b : ℕ) : ℝ) / n + z := by
  refine ⟨-((((a : ℕ) + (b : ℕ)) / n : ℕ) : ℤ), ?_⟩
  have hn : (n : ℝ) ≠ 0 := Nat.cast_ne_zero.2 (NeZero.ne n)
  rw [Fin.val_add]
  have h := Nat.mod_add_div ((a : ℕ) + (b : ℕ)) n
  have h' : ((((a : ℕ) + (b : ℕ)) % n : ℕ) : ℝ) + n * ((((a : ℕ) + (b : ℕ)) / n : ℕ) : ℝ) = (a : ℕ) + (b : ℕ) := by exact_mod_cast h
  rw [← add_div, ← h', Int.cast_neg, Int.cast_natCast]
  field_simp
  ring

theorem point_add (a b : Mesh n1 n2 n3) : Congr (point (a + b)) fun x => point a x + point b x := by
  obtain ⟨z1, h1⟩ := frac_add n1 a.1 b.1
  obtain ⟨z2, h2⟩ := frac_add n2 a.2.1 b.2.1
  obtain ⟨z3, h3⟩ := frac_add n3 a.2.2 b.2.2
  refine ⟨![z1, z2, z3], ?_⟩
  funext x
  unfold point
  fin_cases x
  · show 2 * Real.pi * ((((a.1 + b.1 : Fin n1) : ℕ) : ℝ) / n1) = _
    rw [h1]
    simp
    ring
  · show 2 * Real.pi * ((((a.2.1 + b.2.1 : Fin n2) : ℕ) : ℝ) / n2) = _
    rw [h2]
    simp
    ring
  · show 2 * Real.pi * ((((a.2.2 + b.2.2 : Fin n3) : ℕ) : ℝ) / n3) = _
    rw [h3]
    simp
    ring

theorem onMesh_add {q q' : Fin 3 → ℝ} {i j : Mesh n1 n2 n3} (hi : OnMesh q i) (hj : OnMesh q' j) :
    OnMesh (fun x => q x + q' x) (i + j) := by
  rw [onMesh_iff] at hi hj ⊢
  exact (hi.add hj).trans (point_add i j).symm

end

/-! ### Orthogonality -/

theorem phase_of_congr_zero {k : Fin 3 → ℝ} (h : Congr k fun _ => 0) (R : V3) : phase R k = 1 := by
  rw [phase_congr h]
  unfold Verif.Fourier.phase
  simp

/-- Wave vectors that are trivial for all lattice vectors. -/
theorem congr_zero_of_phase {k : Fin 3 → ℝ} (h : ∀ R, phase R k = 1) : Congr k fun _ => 0 := by
  have key : ∀ x : ℝ, Complex.exp (Complex.I * (x : ℂ)) = 1 → ∃ z : ℤ, x = 2 * Real.pi * z := by
    intro x hx
    obtain ⟨z, hz⟩ := Complex.exp_eq_one_iff.1 hx
    refine ⟨z, ?_⟩
    have h1 : Complex.I * (x : ℂ) = Complex.I * ((2 * Real.pi * z : ℝ) : ℂ) := by
      rw [hz]
      push_cast
      ring
    exact Complex.ofReal_injective (mul_left_cancel₀ Complex.I_ne_zero h1)
  have h0 := h (1, 0, 0)
  have h1 := h (0, 1, 0)
  have h2 := h (0, 0, 1)
  unfold Verif.Fourier.phase at h0 h1 h2
  simp only [Int.cast_one, Int.cast_zero, one_mul, zero_mul, add_zero, zero_add] at h0 h1 h2
  obtain ⟨z0, h0⟩ := key _ h0
  obtain ⟨z1, h1⟩ := key _ h1
  obtain ⟨z2, h2⟩ := key _ h2
  refine ⟨![z0, z1, z2], ?_⟩
  funext x
  fin_cases x <;> simp [h0, h1, h2]

variable {N1 N2 N3 : V3} {s : Supercell}

/-- The sum over the cells of a supercell vanishes unless the wave vector is trivial. -/
theorem sum_cells (hD : detSpec N1 N2 N3 ≠ 0) (hs : Verif.Lattice.supercell N1 N2 N3 = some s) (d : Fin 3 → ℝ)
    (hd : Congr (superK N1 N2 N3 d) fun _ => 0) (hne : ¬ Congr d fun _ => 0) :
    ∑ r : Fin s.cells.length, phase (s.cells.getD r (0, 0, 0)) d = 0 := by
  obtain ⟨R, hR⟩ : ∃ R, phase R d ≠ 1 := by
    by_contra h
    push Not at h
    exact hne (congr_zero_of_phase h)
  have hlt : ∀ S, (tsc s S).2 < s.cells.length := fun S => (tsc_spec hD hs S).1
  let f : Fin s.cells.length → Fin s.cells.length := fun r => ⟨(tsc s (vadd (s.cells.getD r (0, 0, 0)) R)).2, hlt _⟩
  have hph : ∀ r : Fin s.cells.length, phase (s.cells.getD r (0, 0, 0)) d * phase R d = phase (s.cells.getD (f r) (0, 0, 0)) d := by
    intro r
    have h1 := (tsc_spec hD hs (vadd (s.cells.getD r (0, 0, 0)) R)).2
    rw [← phase_add, h1, phase_add, ← phase_superK, phase_of_congr_zero hd, one_mul]
  have hinj : Function.Injective f := by
    intro a b hab
    have ha := (tsc_spec hD hs (vadd (s.cells.getD a (0, 0, 0)) R)).2
    have hb := (tsc_spec hD hs (vadd (s.cells.getD b (0, 0, 0)) R)).2
    have hab' : (tsc s (vadd (s.cells.getD a (0, 0, 0)) R)).2 = (tsc s (vadd (s.cells.getD b (0, 0, 0)) R)).2 := congrArg Fin.val hab
    rw [hab'] at ha
    generalize tsc s (vadd (s.cells.getD a (0, 0, 0)) R) = A at *
    generalize tsc s (vadd (s.cells.getD b (0, 0, 0)) R) = B at *
    have h1 : tsc s (s.cells.getD a (0, 0, 0)) = ((0, 0, 0), (a : ℕ)) := by
      rw [tsc_iff hD hs _ _ _ a.2]
      simp [latPoint, vadd]
    have h2 : tsc s (s.cells.getD a (0, 0, 0)) = (vsub A.1 B.1, (b : ℕ)) := by
      rw [tsc_iff hD hs _ _ _ b.2]
      generalize s.cells.getD a (0, 0, 0) = ca at *
      generalize s.cells.getD b (0, 0, 0) = cb at *
      generalize s.cells.getD B.2 (0, 0, 0) = cc at *
      obtain ⟨a1, a2, a3⟩ := ca
      obtain ⟨b1, b2, b3⟩ := cb
      obtain ⟨c1, c2, c3⟩ := cc
      unfold vadd latPoint at ha hb ⊢
      unfold vsub
      simp only [Prod.mk.injEq] at ha hb ⊢
      refine ⟨?_, ?_, ?_⟩
      · linear_combination ha.1 - hb.1
      · linear_combination ha.2.1 - hb.2.1
      · linear_combination ha.2.2 - hb.2.2
    rw [h1, Prod.mk.injEq] at h2
    exact Fin.ext h2.2
  have hbij : Function.Bijective f := Finite.injective_iff_bijective.1 hinj
  have h1 : (∑ r : Fin s.cells.length, phase (s.cells.getD r (0, 0, 0)) d) * phase R d =
      ∑ r : Fin s.cells.length, phase (s.cells.getD r (0, 0, 0)) d := by
    rw [Finset.sum_mul, Finset.sum_congr rfl fun r _ => hph r]
    exact hbij.sum_comp fun r : Fin s.cells.length => phase (s.cells.getD r (0, 0, 0)) d
  have h2 : (∑ r : Fin s.cells.length, phase (s.cells.getD r (0, 0, 0)) d) * (phase R d - 1) = 0 := by
    rw [mul_sub, h1, mul_one, sub_self]
  exact (mul_eq_zero.1 h2).resolve_right (sub_ne_zero.2 hR)

/-! ### Folding of meshes -/

variable {n1 n2 n3 m1 m2 m3 : Nat} [NeZero n1] [NeZero n2] [NeZero n3] [NeZero m1] [NeZero m2] [NeZero m3]

/-- Specification: each point of the mesh of the unit cell is a point of the mesh of the supercell, which has less points by a factor of
the number of cells. -/
structure Folds (N1 N2 N3 : V3) (cells : Nat) (fold : Mesh n1 n2 n3 → Mesh m1 m2 m3) : Prop where
  point : ∀ k, OnMesh (superK N1 N2 N3 (point k)) (fold k)
  surj : Function.Surjective fold
  card : n1 * n2 * n3 = cells * (m1 * m2 * m3)

/-- Phases of the cells. -/
noncomputable def cellPhase (s : Supercell) (r : Fin s.cells.length) (k : Mesh n1 n2 n3) : ℂ := phase (s.cells.getD r (0, 0, 0)) (point k)

theorem folds_fold (hD : detSpec N1 N2 N3 ≠ 0) (hs : Verif.Lattice.supercell N1 N2 N3 = some s) {fold : Mesh n1 n2 n3 → Mesh m1 m2 m3}
    (hf : Folds N1 N2 N3 s.cells.length fold) : Fold fold (cellPhase s) := by
  have hadd : ∀ a b, fold (a + b) = fold a + fold b := by
    intro a b
    have h1 := (onMesh_iff _ _).1 (onMesh_add (hf.point a) (hf.point b))
    rw [← superK_add] at h1
    exact onMesh_unique (hf.point (a + b)) ((onMesh_iff _ _).2 ((point_add a b).superK.trans h1))
  have hunit : ∀ (r : Fin s.cells.length) (a : Mesh n1 n2 n3), star (cellPhase s r a) * cellPhase s r a = 1 := by
    intro r a
    have h1 := Complex.conj_mul' (cellPhase s r a)
    unfold cellPhase at h1 ⊢
    rw [norm_phase] at h1
    refine h1.trans ?_
    norm_num
  have hmul : ∀ (r : Fin s.cells.length) (a b : Mesh n1 n2 n3), cellPhase s r (a + b) = cellPhase s r a * cellPhase s r b := by
    intro r a b
    unfold cellPhase
    rw [phase_congr (point_add a b)]
    unfold Verif.Fourier.phase
    rw [← Complex.exp_add]
    congr 1
    push_cast
    ring
  refine ⟨hadd, ?_, hmul, hunit, ?_⟩
  · intro K
    have h1 : ∀ K, Fintype.card {κ // fold κ = K} = Fintype.card {κ // fold κ = 0} := by
      intro K
      obtain ⟨a, ha⟩ := hf.surj K
      refine Fintype.card_congr ((Equiv.subRight a).subtypeEquiv fun κ => ?_)
      show fold κ = K ↔ fold (κ - a) = 0
      have h2 := hadd (κ - a) a
      rw [sub_add_cancel, ha] at h2
      rw [h2]
      exact add_eq_right
    have h2 : Fintype.card (Mesh n1 n2 n3) = Fintype.card (Mesh m1 m2 m3) * Fintype.card {κ // fold κ = 0} := by
      rw [← Fintype.card_congr (Equiv.sigmaFiberEquiv fold), Fintype.card_sigma, Finset.sum_congr rfl fun K _ => h1 K, Finset.sum_const,
        Finset.card_univ, smul_eq_mul]
    rw [h1 K]
    have h3 : Fintype.card (Mesh n1 n2 n3) = n1 * n2 * n3 := by simp [mul_assoc]
    have h4 : Fintype.card (Mesh m1 m2 m3) = m1 * m2 * m3 := by simp [mul_assoc]
    rw [h3, h4, hf.card, mul_comm] at h2
    have h5 : 0 < m1 * m2 * m3 := Nat.mul_pos (Nat.mul_pos (NeZero.pos m1) (NeZero.pos m2)) (NeZero.pos m3)
    exact (Nat.eq_of_mul_eq_mul_left h5 h2).symm
  · intro a b hab
    have h1 : ∀ r, star (cellPhase s r a) * cellPhase s r b = cellPhase s r (b - a) := by
      intro r
      have h2 := hmul r (b - a) a
      rw [sub_add_cancel] at h2
      rw [h2, mul_comm, mul_assoc, mul_comm _ (star _), hunit, mul_one]
    simp only [h1]
    split_ifs with h
    · subst h
      have h2 : ∀ r : Fin s.cells.length, cellPhase s r (a - a) = 1 := by
        intro r
        rw [← h1, hunit]
      simp only [h2]
      simp
    · refine sum_cells hD hs (point (b - a)) ?_ ?_
      · have h2 := hadd (b - a) a
        rw [sub_add_cancel, hab] at h2
        have h3 : fold (b - a) = 0 := add_eq_right.1 h2.symm
        have h4 := hf.point (b - a)
        rw [h3, onMesh_iff] at h4
        have h5 : point (0 : Mesh m1 m2 m3) = fun _ => 0 := by
          funext x
          unfold point
          fin_cases x <;> simp
        rw [h5] at h4
        exact h4
      · intro h2
        have h3 := (onMesh_iff _ _).1 (onMesh_point (b - a))
        have h4 : point (0 : Mesh n1 n2 n3) = fun _ => 0 := by
          funext x
          unfold point
          fin_cases x <;> simp
        rw [← h4] at h2
        have h5 := onMesh_unique (onMesh_point (b - a)) ((onMesh_iff _ _).2 h2)
        exact h (sub_eq_zero.1 h5).symm

end Verif.Diag.Derivatives
