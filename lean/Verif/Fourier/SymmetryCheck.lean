import Verif.Fourier.SymmetryElph

/-! # Property C171: violations of Hermiticity and concrete cases -/

namespace Verif.Fourier

open Verif.Voronoi

/-! ### Electrons: orbitals that are two unit cells apart -/

/-- Two orbitals that are two unit cells apart along the first lattice vector. -/
noncomputable def farOrbitals : Fin 2 → Fin 3 → ℝ := ![![0, 0, 0], ![2, 0, 0]]

/-- Matrix that couples the two orbitals. -/
def couplingMatrix : V3 → Fin 2 → Fin 2 → ℂ := fun _ a b => if a = b then 0 else 1

theorem far_length (R : V3) :
    bondLength (ortho 1 1) (farOrbitals 0) (farOrbitals 1) R = Real.sqrt ((((R.1 + 2) ^ 2 + R.2.1 ^ 2 + R.2.2 ^ 2 : Int)) : ℝ) ∧
    bondLength (ortho 1 1) (farOrbitals 1) (farOrbitals 0) R = Real.sqrt ((((R.1 - 2) ^ 2 + R.2.1 ^ 2 + R.2.2 ^ 2 : Int)) : ℝ) := by
  unfold bondLength
  constructor
  · simp [ortho, farOrbitals]
    congr 1
    ring
  · simp [ortho, farOrbitals]
    congr 1
    ring

theorem far_shortest (R : V3) : (Shortest 1 1 1 1 (bondLength (ortho 1 1) (farOrbitals 0) (farOrbitals 1)) R ↔ R = (-2, 0, 0)) ∧
    (Shortest 1 1 1 1 (bondLength (ortho 1 1) (farOrbitals 1) (farOrbitals 0)) R ↔ R = (1, 0, 0)) := by
  obtain ⟨x, y, z⟩ := R
  have hsq : ∀ (N : Int) (c : ℝ), Real.sqrt (N : ℝ) < c → 0 ≤ N → (N : ℝ) < c ^ 2 := by
    intro N c h hN
    have h0 : (0 : ℝ) ≤ (N : ℝ) := by exact_mod_cast hN
    have := Real.sq_sqrt h0
    have := Real.sqrt_nonneg (N : ℝ)
    nlinarith
  have heq : ∀ R R' : V3, Equivalent 1 1 1 R R' := fun R R' => ⟨by simp, by simp, by simp⟩
  constructor
  · constructor
    · rintro ⟨hr, hmin⟩
      have h := hmin (-2, 0, 0) (heq _ _) (by norm_num [InRange])
      rw [(far_length _).1, (far_length _).1] at h
      norm_num at h
      have h2 := hsq ((x + 2) ^ 2 + y ^ 2 + z ^ 2) (1 / 10000000) (by push_cast; linarith) (by positivity)
      have h3 : (((x + 2) ^ 2 + y ^ 2 + z ^ 2 : Int) : ℝ) < 1 := by linarith [show ((1 : ℝ) / 10000000) ^ 2 < 1 by norm_num]
      have h4 : (x + 2) ^ 2 + y ^ 2 + z ^ 2 < 1 := by exact_mod_cast h3
      have hx : x + 2 = 0 := by nlinarith [sq_nonneg (x + 2), sq_nonneg y, sq_nonneg z]
      have hy : y = 0 := by nlinarith [sq_nonneg (x + 2), sq_nonneg y, sq_nonneg z]
      have hz : z = 0 := by nlinarith [sq_nonneg (x + 2), sq_nonneg y, sq_nonneg z]
      have : x = -2 := by omega
      subst this hy hz
      rfl
    · intro h
      rw [h]
      refine ⟨by norm_num [InRange], fun R' _ _ => ?_⟩
      rw [(far_length _).1]
      have : 0 ≤ bondLength (ortho 1 1) (farOrbitals 0) (farOrbitals 1) R' := Real.sqrt_nonneg _
      norm_num
      linarith
  · constructor
    · rintro ⟨⟨⟨hr1, hr2⟩, -⟩, hmin⟩
      have h := hmin (1, 0, 0) (heq _ _) (by norm_num [InRange])
      rw [(far_length _).2, (far_length _).2] at h
      norm_num at h
      have h2 := hsq ((x - 2) ^ 2 + y ^ 2 + z ^ 2) (1 + 1 / 10000000) (by push_cast; linarith) (by positivity)
      have h3 : (((x - 2) ^ 2 + y ^ 2 + z ^ 2 : Int) : ℝ) < 2 := by linarith [show ((1 : ℝ) + 1 / 10000000) ^ 2 < 2 by norm_num]
      have h4 : (x - 2) ^ 2 + y ^ 2 + z ^ 2 < 2 := by exact_mod_cast h3
      simp only at hr1 hr2
      have hx : x ≤ 1 := by norm_num at hr2; omega
      have hx' : x = 1 := by
        by_contra hne
        have : x ≤ 0 := by omega
        nlinarith [sq_nonneg y, sq_nonneg z]
      subst hx'
      have hy : y = 0 := by nlinarith [sq_nonneg y, sq_nonneg z]
      have hz : z = 0 := by nlinarith [sq_nonneg y, sq_nonneg z]
      subst hy hz
      rfl
    · intro h
      rw [h]
      refine ⟨by norm_num [InRange], fun R' _ hr => ?_⟩
      rw [(far_length _).2, (far_length _).2]
      have h1 : (1 : Int) ≤ (R'.1 - 2) ^ 2 + R'.2.1 ^ 2 + R'.2.2 ^ 2 := by
        have : R'.1 ≤ 1 := by have := hr.1.2; norm_num at this; omega
        nlinarith [sq_nonneg R'.2.1, sq_nonneg R'.2.2]
      have h2 : (1 : ℝ) ≤ (((R'.1 - 2) ^ 2 + R'.2.1 ^ 2 + R'.2.2 ^ 2 : Int) : ℝ) := by exact_mod_cast h1
      have h3 := Real.sqrt_le_sqrt h2
      rw [Real.sqrt_one] at h3
      have h4 : Real.sqrt (((((1 : Int), (0 : Int), (0 : Int)).1 - 2) ^ 2 + ((1 : Int), (0 : Int), (0 : Int)).2.1 ^ 2 +
          ((1 : Int), (0 : Int), (0 : Int)).2.2 ^ 2 : Int) : ℝ) = 1 := by norm_num
      rw [h4]
      linarith [show (0 : ℝ) < 1e-7 by norm_num]

/-- C171 is violated for positions that are not in neighbouring unit cells: the search range of `wigner` is asymmetric, so that the model set up from a
Hermitian matrix is not Hermitian. -/
theorem C171_hermitian_violated (size : Nat) (hsize : 0 < size) :
    (∀ q a b, couplingMatrix q b a = star (couplingMatrix q a b)) ∧
    ∃ l, k2r size 1 1 1 (ortho 1 1) farOrbitals true false false true 1 couplingMatrix = some l ∧
      ∃ k, bloch l k 1 0 ≠ star (bloch l k 0 1) := by
  refine ⟨fun q a b => by by_cases h : a = b <;> simp [couplingMatrix, h, eq_comm], ?_⟩
  obtain ⟨l, hl, hb⟩ := k2r_mean size hsize 1 1 1 one_pos one_pos one_pos (ortho 1 1) farOrbitals false false 1 couplingMatrix
  refine ⟨l, hl, ![Real.pi, 0, 0], ?_⟩
  have hms : meshSet 1 1 1 = {((0 : Int), (0 : Int), (0 : Int))} := by decide
  have hco : ∀ a b : Fin 2, a ≠ b → coeff 1 1 1 1 (fun q => couplingMatrix q a b) (0, 0, 0) = 1 := by
    intro a b hab
    simp [coeff, hms, couplingMatrix, hab, signed, om3, om_zero]
  have hsel : ∀ (len : V3 → ℝ) (R0 : V3), (∀ R, Shortest 1 1 1 1 len R ↔ R = R0) → ∀ k, mean 1 1 1 1 len (0, 0, 0) k = phase R0 k := by
    intro len R0 h k
    have : (sel 1 1 1 1 len (0, 0, 0)).toFinset = {R0} := by
      ext R
      have hm := mem_sel 1 (Or.inl rfl) 1 1 1 one_pos one_pos one_pos len (0, 0, 0) R
      have h0 : meshIndex 1 1 1 1 (0, 0, 0) = (0, 0, 0) := by decide
      rw [h0] at hm
      rw [List.mem_toFinset, hm, h R, Finset.mem_singleton]
      exact and_iff_right ⟨by simp, by simp, by simp⟩
    rw [mean, this]
    simp
  rw [hb, hb, hms, Finset.sum_singleton, Finset.sum_singleton, hco 1 0 (by decide), hco 0 1 (by decide),
    hsel _ _ (fun R => (far_shortest R).1), hsel _ _ (fun R => (far_shortest R).2)]
  have e1 : phase (1, 0, 0) ![Real.pi, 0, 0] = -1 := by
    unfold phase
    simp [mul_comm Complex.I]
  have e2 : phase (-2, 0, 0) ![Real.pi, 0, 0] = 1 := by
    unfold phase
    simp
    rw [Complex.exp_eq_one_iff]
    exact ⟨-1, by push_cast; ring⟩
  rw [e1, e2]
  simp [unitFactor]
  norm_num

/-! ### Electron-phonon coupling -/

/-- Sum of mesh points. -/
def addMesh (n1 n2 n3 : Nat) (k q : V3) : V3 := ((k.1 + q.1) % n1, (k.2.1 + q.2.1) % n2, (k.2.2 + q.2.2) % n3)

/-- Lattice vectors of displaced atom and initial orbital on opposite sides of the final orbital. -/
def oppositePairs : List (V3 × V3) := [((1, 0, 0), (-1, 0, 0)), ((-1, 0, 0), (1, 0, 0))]

/-- Coupling to displacements on the far side of the final orbital, sampled on meshes of three points. -/
noncomputable def oppositeCoupling : V3 → Fin 1 × Fin 3 → V3 → Fin 1 → Fin 1 → ℂ :=
  fun q _ k _ _ => fourierSum2 oppositePairs.toFinset (fun _ => 1) (meshK 3 1 1 q) (meshK 3 1 1 k)

theorem opposite_sum (q k : Fin 3 → ℝ) :
    fourierSum2 oppositePairs.toFinset (fun _ => 1) q k = phase (1, 0, 0) q * phase (-1, 0, 0) k + phase (-1, 0, 0) q * phase (1, 0, 0) k := by
  have : oppositePairs.toFinset = {(((1 : Int), (0 : Int), (0 : Int)), ((-1 : Int), (0 : Int), (0 : Int))),
    (((-1 : Int), (0 : Int), (0 : Int)), ((1 : Int), (0 : Int), (0 : Int)))} := by decide
  rw [fourierSum2, this, Finset.sum_pair (by decide), one_mul, one_mul]

/-- C171 is violated for the Hermiticity of the electron-phonon coupling: although the sampled coupling is Hermitian at all mesh points, that of the
model is not Hermitian in between, since the difference of two shortest lattice vectors need not be a shortest lattice vector. -/
theorem C171_elph_hermitian_violated (size : Nat) (hsize : 0 < size) (divideMass elphDivideMass : Bool) :
    (∀ q k, IsMesh 3 1 1 q → IsMesh 3 1 1 k → ∀ x a b,
      oppositeCoupling q x k a b = star (oppositeCoupling (negMesh 3 1 1 q) x (addMesh 3 1 1 k q) b a)) ∧
    let m := elphQ2r size 3 1 1 3 1 1 (ortho 1 1) (fun _ : Fin 1 => ![0, 0, 0]) (fun _ : Fin 1 => ![0, 0, 0]) (fun _ => 1) divideMass elphDivideMass
      oppositeCoupling
    ∃ q k x a b, coupling m.1 m.2.1 m.2.2 q k x a b ≠ star (coupling m.1 m.2.1 m.2.2 (-q) (k + q) x b a) := by
  constructor
  · intro q k hq hk x a b
    simp only [oppositeCoupling, opposite_sum, phase_meshK]
    have e1 : ∀ s : Int, ∀ v : V3, om3 3 1 1 (s, 0, 0) v = om 3 (s * v.1) := fun s v => by simp [om3, om_zero]
    simp only [e1, negMesh, addMesh]
    have h1 : om 3 (1 * (-q.1 % (3 : Nat))) = om 3 (-q.1) := om_congr 3 (by norm_num) _ _ (by push_cast; omega)
    have h2 : om 3 (-1 * (-q.1 % (3 : Nat))) = om 3 q.1 := om_congr 3 (by norm_num) _ _ (by push_cast; omega)
    have h3 : om 3 (1 * ((k.1 + q.1) % (3 : Nat))) = om 3 (k.1 + q.1) := om_congr 3 (by norm_num) _ _ (by push_cast; omega)
    have h4 : om 3 (-1 * ((k.1 + q.1) % (3 : Nat))) = om 3 (-(k.1 + q.1)) := om_congr 3 (by norm_num) _ _ (by push_cast; omega)
    rw [h1, h2, h3, h4, ← om_add, ← om_add, ← om_add, ← om_add, star_add, om_star, om_star, add_comm]
    refine congrArg₂ (· + ·) (om_congr 3 (by norm_num) _ _ ?_) (om_congr 3 (by norm_num) _ _ ?_)
    · exact ⟨-q.1, by push_cast; ring⟩
    · exact ⟨q.1, by push_cast; ring⟩
  · intro m
    have hS : ∀ (x : Fin 1 × Fin 3) (a b : Fin 1), ShortPairs 3 1 1 3 1 1 (ortho 1 1) ![0, 0, 0] ![0, 0, 0] ![0, 0, 0] oppositePairs.toFinset
        (fun _ => (1 : ℂ)) := fun x a b =>
      shortPairs_of_check 3 1 1 3 1 1 (fun R => R.1 ^ 2) (fun R => R.2.1 ^ 2 + R.2.2 ^ 2) (fun R => R.1 ^ 2) (fun R => R.2.1 ^ 2 + R.2.2 ^ 2)
        (1 ^ 2) (1 ^ 2) (by norm_num) (by norm_num) (by norm_num) (by norm_num) (ortho 1 1) _ _ _ (fun R => ortho_length 1 1 _ R)
        (fun R => ortho_length 1 1 _ R) _ _ (by decide +kernel)
    have h := fun q k => C142_elph size hsize 3 1 1 3 1 1 (by norm_num) one_pos one_pos (by norm_num) one_pos one_pos (ortho 1 1)
      (fun _ : Fin 1 => ![0, 0, 0]) (fun _ : Fin 1 => ![0, 0, 0]) (fun _ => 1) divideMass elphDivideMass (fun _ _ _ => oppositePairs.toFinset)
      (fun _ _ _ _ => 1) hS q k (0, 0) 0 0
    have h' : ∀ q k, coupling m.1 m.2.1 m.2.2 q k (0, 0) 0 0 = fourierSum2 oppositePairs.toFinset (fun _ => 1) q k := fun q k =>
      (h q k).trans (by cases divideMass <;> cases elphDivideMass <;> simp)
    refine ⟨![Real.pi, 0, 0], 0, (0, 0), 0, 0, ?_⟩
    intro he
    have h1 := (h' ![Real.pi, 0, 0] 0).symm.trans (he.trans (congrArg star (h' (-![Real.pi, 0, 0]) (0 + ![Real.pi, 0, 0]))))
    simp only [opposite_sum] at h1
    rw [zero_add, phase_neg_right, phase_neg_right] at h1
    have e1 : phase (1, 0, 0) ![Real.pi, 0, 0] = -1 := by
      unfold phase
      simp [mul_comm Complex.I]
    have e2 : phase (-1, 0, 0) ![Real.pi, 0, 0] = -1 := by
      have := phase_neg (1, 0, 0) ![Real.pi, 0, 0]
      rw [e1] at this
      simpa using this
    have e0 : ∀ R : V3, phase R 0 = 1 := fun R => by simp [phase]
    rw [e1, e2, e0, e0] at h1
    norm_num at h1

/-! ### Concrete cases -/

/-- All shortest bonds are mapped to the search range. -/
def rangeCheck (sgn : Int) (n1 n2 n3 : Nat) (p w : V3 → Int) (ρ : V3 → V3) : Bool :=
  (box sgn n1 n2 n3).all (fun R => decide (0 ≤ p R ∧ p R ≤ 2000 ∧ 0 ≤ w R ∧ w R ≤ 2000)) &&
  (box sgn n1 n2 n3).all fun R =>
    decide ((-(2 * n1 : Int) ≤ sgn * (ρ R).1 ∧ sgn * (ρ R).1 < 2 * n1) ∧ (-(2 * n2 : Int) ≤ sgn * (ρ R).2.1 ∧ sgn * (ρ R).2.1 < 2 * n2) ∧
      (-(2 * n3 : Int) ≤ sgn * (ρ R).2.2 ∧ sgn * (ρ R).2.2 < 2 * n3)) ||
    (box sgn n1 n2 n3).any fun R' =>
      decide ((n1 : Int) ∣ R'.1 - R.1) && decide ((n2 : Int) ∣ R'.2.1 - R.2.1) && decide ((n3 : Int) ∣ R'.2.2 - R.2.2) &&
      (decide (p R' ≤ p R) && decide (w R' ≤ w R) && (decide (p R' < p R) || decide (w R' < w R)))

theorem range_of_check (sgn : Int) (hs : sgn = 1 ∨ sgn = -1) (n1 n2 n3 : Nat) (p w : V3 → Int) (A C : ℝ) (hA : 1 / 100 ≤ A) (hA' : A ≤ 10000)
    (hC : 1 / 100 ≤ C) (hC' : C ≤ 10000) (len : V3 → ℝ)
    (hlen : ∀ R, len R = Real.sqrt (A * (p R : ℝ) + C * (w R : ℝ))) (ρ : V3 → V3)
    (hc : rangeCheck sgn n1 n2 n3 p w ρ = true) : ∀ R, Shortest sgn n1 n2 n3 len R → InRange sgn n1 n2 n3 (ρ R) := by
  simp only [rangeCheck, Bool.and_eq_true, Bool.or_eq_true, List.all_eq_true, List.any_eq_true, decide_eq_true_eq] at hc
  obtain ⟨hb, hc⟩ := hc
  rintro R ⟨hR, hmin⟩
  have hbox := mem_box sgn hs n1 n2 n3 R hR
  rcases hc R hbox with h | ⟨R', hbox', ⟨⟨e1, e2⟩, e3⟩, ⟨l1, l2⟩, l3⟩
  · exact h
  · exfalso
    have h := hmin R' ⟨e1, e2, e3⟩ (inRange_of_box sgn hs n1 n2 n3 R' hbox')
    obtain ⟨p0, p1, w0, w1⟩ := hb R hbox
    obtain ⟨p0', p1', w0', w1'⟩ := hb R' hbox'
    have c1 : (0 : ℝ) ≤ p R' := by exact_mod_cast p0'
    have c2 : (0 : ℝ) ≤ w R' := by exact_mod_cast w0'
    have c3 : (p R : ℝ) ≤ 2000 := by exact_mod_cast p1
    have c4 : (w R : ℝ) ≤ 2000 := by exact_mod_cast w1
    have c3' : (0 : ℝ) ≤ p R := by exact_mod_cast p0
    have c4' : (0 : ℝ) ≤ w R := by exact_mod_cast w0
    have c5 : (p R' : ℝ) ≤ p R := by exact_mod_cast l1
    have c6 : (w R' : ℝ) ≤ w R := by exact_mod_cast l2
    have hgap := sqrt_gap (A * (p R' : ℝ) + C * (w R' : ℝ)) (A * (p R : ℝ) + C * (w R : ℝ))
      (by
        have := mul_nonneg (by linarith : (0 : ℝ) ≤ A) c1
        have := mul_nonneg (by linarith : (0 : ℝ) ≤ C) c2
        linarith)
      (by
        rcases l3 with h2 | h2
        · have c7 : (p R' : ℝ) + 1 ≤ p R := by exact_mod_cast h2
          nlinarith
        · have c7 : (w R' : ℝ) + 1 ≤ w R := by exact_mod_cast h2
          nlinarith)
      (by nlinarith)
    rw [hlen, hlen] at h
    linarith

/-- Positions of the two orbitals of graphene. -/
noncomputable def grapheneSites : Fin 2 → Fin 3 → ℝ := ![fun _ => 0, fun x => 2 / 3 * hex 1 10 0 x + 1 / 3 * hex 1 10 1 x]

/-- Thirds of lattice vectors between the orbitals. -/
def grapheneThirds (a b : Fin 2) : Int := (b : Int) - (a : Int)

theorem graphene_length (a b : Fin 2) (R : V3) : bondLength (hex 1 10) (grapheneSites a) (grapheneSites b) R =
    Real.sqrt (1 ^ 2 / 9 * (hexP (2 * grapheneThirds a b) (grapheneThirds a b) R : ℝ) + 10 ^ 2 / 100 * (hexW 0 R : ℝ)) := by
  apply hex_length
  intro x
  fin_cases a <;> fin_cases b <;> simp [grapheneSites, grapheneThirds] <;> ring

theorem graphene_check (sgn : Int) (hs : sgn = 1 ∨ sgn = -1) (a b : Fin 2) :
    rangeCheck sgn 2 2 1 (hexP (2 * grapheneThirds a b) (grapheneThirds a b)) (hexW 0) (fun R => -R) = true := by
  have key : ∀ a b : Fin 2, rangeCheck 1 2 2 1 (hexP (2 * grapheneThirds a b) (grapheneThirds a b)) (hexW 0) (fun R => -R) = true ∧
      rangeCheck (-1) 2 2 1 (hexP (2 * grapheneThirds a b) (grapheneThirds a b)) (hexW 0) (fun R => -R) = true := by decide +kernel
  rcases hs with rfl | rfl
  · exact (key a b).1
  · exact (key a b).2

theorem graphene_inside (sgn : Int) (hs : sgn = 1 ∨ sgn = -1) (a b : Fin 2) :
    Inside sgn 2 2 1 (bondLength (hex 1 10) (grapheneSites a) (grapheneSites b)) :=
  range_of_check sgn hs 2 2 1 _ _ (1 ^ 2 / 9) (10 ^ 2 / 100) (by norm_num) (by norm_num) (by norm_num) (by norm_num) _
    (graphene_length a b) _ (graphene_check sgn hs a b)

/-- Nearest-neighbour hopping. -/
noncomputable def grapheneF (q : V3) : ℂ := 1 + om3 2 2 1 (-1, 0, 0) q + om3 2 2 1 (-1, -1, 0) q

/-- Hamiltonian of graphene on a mesh of two by two points. -/
noncomputable def grapheneH (q : V3) (a b : Fin 2) : ℂ := if a = b then 0 else if a = 0 then grapheneF q else star (grapheneF q)

theorem grapheneH_hermitian (q : V3) (a b : Fin 2) : grapheneH q b a = star (grapheneH q a b) := by
  fin_cases a <;> fin_cases b <;> simp [grapheneH]

theorem grapheneF_neg (q : V3) (hq : IsMesh 2 2 1 q) : grapheneF (negMesh 2 2 1 q) = star (grapheneF q) := by
  simp only [grapheneF, om3_negMesh 2 2 1 _ q hq, star_add, star_one]

theorem grapheneH_neg (q : V3) (hq : IsMesh 2 2 1 q) (a b : Fin 2) : grapheneH (negMesh 2 2 1 q) a b = star (grapheneH q a b) := by
  fin_cases a <;> fin_cases b <;> simp [grapheneH, grapheneF_neg q hq]

/-- Inversion about the center of a bond. -/
noncomputable def grapheneInversion : Operation (hex 1 10) grapheneSites (fun a : Fin 2 => a) where
  O := fun x y => if x = y then -1 else 0
  S := AddEquiv.neg V3
  τ := grapheneSites 1
  u := fun a a' => if a = a' then 0 else 1
  t := fun _ _ => 0
  isometry := fun v => by simp
  lattice := fun R x => by
    simp [cart]
    ring
  sites := fun a a' h x => by
    have : a ≠ a' := fun e => h (by simp [e])
    have h0 : ∀ x, grapheneSites 0 x = 0 := fun x => rfl
    fin_cases a <;> fin_cases a' <;> simp [cart, h0] at this ⊢

theorem grapheneInversion_compatible (sgn : Int) (hs : sgn = 1 ∨ sgn = -1) : grapheneInversion.Compatible (fun _ _ => True) sgn 2 2 1 := by
  have hb : ∀ a b a' b' R, grapheneInversion.bond a b a' b' R = -R := fun a b a' b' R => by
    show -R + (0 - 0) = -R
    simp
  have hb' : ∀ a b a' b' R, (grapheneInversion.bond a b a' b').symm R = -R := fun a b a' b' R => by
    rw [Equiv.symm_apply_eq, hb, neg_neg]
  refine ⟨fun R => ?_, fun a b a' b' _ _ _ R hR => ?_, fun a b a' b' _ _ _ R hR => ?_⟩
  · have := neg_equiv 2 2 1 0 R
    show _ ↔ Equivalent 2 2 1 0 (-R)
    simpa using this
  · rw [hb]
    exact graphene_inside sgn hs a' b' R hR
  · rw [hb']
    exact graphene_inside sgn hs a b R hR

theorem grapheneInversion_rotated (q : V3) (hq : IsMesh 2 2 1 q) :
    IsMesh 2 2 1 (negMesh 2 2 1 q) ∧ grapheneInversion.Rotated (meshK 2 2 1 q) (meshK 2 2 1 (negMesh 2 2 1 q)) := by
  refine ⟨negMesh_isMesh 2 2 1 q hq, fun R => ?_⟩
  show phase (-R) _ = _
  rw [phase_meshK, phase_meshK, om3_negMesh 2 2 1 _ q hq, om3_neg, star_star]

theorem grapheneInversion_related (q : V3) (hq : IsMesh 2 2 1 q) :
    grapheneInversion.Related (meshK 2 2 1 (negMesh 2 2 1 q)) (grapheneH q) (grapheneH (negMesh 2 2 1 q)) := by
  intro a b
  have e0 : ∀ k, phase ((0 : V3) - 0) k = 1 := fun k => by simp [phase]
  rw [grapheneH_neg q hq]
  show _ = ∑ a', ∑ b', (if a = a' then (0 : ℂ) else 1) * star (if b = b' then (0 : ℂ) else 1) * phase (0 - 0) _ * grapheneH q a' b'
  rw [e0]
  fin_cases a <;> fin_cases b <;> simp [Fin.sum_univ_two, grapheneH]

/-- A concrete case of `C171_k2r_hermitian_partial`. -/
example := C171_k2r_hermitian_partial 3 (by norm_num) 2 2 1 (by norm_num) (by norm_num) one_pos (hex 1 10) grapheneSites false true 13.6 grapheneH
  (graphene_inside 1 (Or.inl rfl)) (fun q _ a b => grapheneH_hermitian q a b)

/-- A concrete case of `C171_elel_hermitian_partial`. -/
example := C171_elel_hermitian_partial 3 (by norm_num) 2 2 1 (by norm_num) (by norm_num) one_pos (hex 1 10) grapheneSites grapheneH
  (graphene_inside 1 (Or.inl rfl)) (fun q _ a b => grapheneH_hermitian q a b)

/-- Dynamical matrix with the same structure in all directions. -/
noncomputable def grapheneD (q : V3) (a b : Fin 2 × Fin 3) : ℂ := if a.2 = b.2 then grapheneH q a.1 b.1 else 0

/-- A concrete case of `C171_ph_hermitian_partial`. -/
example := C171_ph_hermitian_partial 3 (by norm_num) 2 2 1 (by norm_num) (by norm_num) one_pos (hex 1 10) grapheneSites (fun _ => 12) (by norm_num) true true
  grapheneD (graphene_inside (-1) (Or.inr rfl)) (fun q _ a b => by
    by_cases h : a.2 = b.2
    · simp only [grapheneD, h, if_true]
      exact grapheneH_hermitian q a.1 b.1
    · simp [grapheneD, h, Ne.symm h])

/-- A concrete case of `C171_k2r_time_reversal`. -/
example := C171_k2r_time_reversal 3 (by norm_num) 2 2 1 (by norm_num) (by norm_num) one_pos (hex 1 10) grapheneSites false true 13.6 grapheneH
  (fun q hq a b => grapheneH_neg q hq a b)

/-- A concrete case of `C171_elel_time_reversal`. -/
example := C171_elel_time_reversal 3 (by norm_num) 2 2 1 (by norm_num) (by norm_num) one_pos (hex 1 10) grapheneSites grapheneH
  (fun q hq a b => grapheneH_neg q hq a b)

/-- A concrete case of `C171_ph_time_reversal`. -/
example := C171_ph_time_reversal 3 (by norm_num) 2 2 1 (by norm_num) (by norm_num) one_pos (hex 1 10) grapheneSites (fun _ => 12) (by norm_num) true
  true grapheneD

/-- A concrete case of `C171_k2r_space_group_partial`. -/
example := C171_k2r_space_group_partial 3 (by norm_num) 2 2 1 (by norm_num) (by norm_num) one_pos (hex 1 10) grapheneSites false true 13.6 grapheneH
  grapheneInversion (grapheneInversion_compatible 1 (Or.inl rfl)) (negMesh 2 2 1) grapheneInversion_rotated grapheneInversion_related

/-- A concrete case of `C171_elel_space_group_partial`. -/
example := C171_elel_space_group_partial 3 (by norm_num) 2 2 1 (by norm_num) (by norm_num) one_pos (hex 1 10) grapheneSites grapheneH
  grapheneInversion (grapheneInversion_compatible 1 (Or.inl rfl)) (negMesh 2 2 1) grapheneInversion_rotated grapheneInversion_related

/-- Inversion about the common position of all sites. -/
noncomputable def originInversion {σ α : Type} (site : α → σ) (u : α → α → ℂ) : Operation (ortho 1 1) (fun _ : σ => fun _ => 0) site where
  O := fun x y => if x = y then -1 else 0
  S := AddEquiv.neg V3
  τ := fun _ => 0
  u := u
  t := fun _ _ => 0
  isometry := fun v => by simp
  lattice := fun R x => by
    simp [cart]
    ring
  sites := fun a a' _ x => by simp [cart]

theorem origin_check : rangeCheck 1 3 1 1 (fun R => R.1 ^ 2) (fun R => R.2.1 ^ 2 + R.2.2 ^ 2) (fun R => -R) = true ∧
    rangeCheck (-1) 3 1 1 (fun R => R.1 ^ 2) (fun R => R.2.1 ^ 2 + R.2.2 ^ 2) (fun R => -R) = true := by decide +kernel

theorem origin_inside (sgn : Int) (hs : sgn = 1 ∨ sgn = -1) : Inside sgn 3 1 1 (bondLength (ortho 1 1) (fun _ => 0) (fun _ => 0)) :=
  range_of_check sgn hs 3 1 1 _ _ (1 ^ 2) (1 ^ 2) (by norm_num) (by norm_num) (by norm_num) (by norm_num) _ (ortho_length 1 1 _) _
    (by rcases hs with rfl | rfl; exacts [origin_check.1, origin_check.2])

theorem originInversion_compatible {σ α : Type} (site : α → σ) (u : α → α → ℂ) (kind : α → α → Prop) (sgn : Int) (hs : sgn = 1 ∨ sgn = -1) :
    (originInversion site u).Compatible kind sgn 3 1 1 := by
  have hb : ∀ a b a' b' R, (originInversion site u).bond a b a' b' R = -R := fun a b a' b' R => by
    show -R + (0 - 0) = -R
    simp
  have hb' : ∀ a b a' b' R, ((originInversion site u).bond a b a' b').symm R = -R := fun a b a' b' R => by
    rw [Equiv.symm_apply_eq, hb, neg_neg]
  refine ⟨fun R => ?_, fun a b a' b' _ _ _ R hR => ?_, fun a b a' b' _ _ _ R hR => ?_⟩
  · have := neg_equiv 3 1 1 0 R
    show _ ↔ Equivalent 3 1 1 0 (-R)
    simpa using this
  · rw [hb]
    exact origin_inside sgn hs R hR
  · rw [hb']
    exact origin_inside sgn hs R hR

theorem originInversion_rotated {σ α : Type} (site : α → σ) (u : α → α → ℂ) (q : V3) (hq : IsMesh 3 1 1 q) :
    IsMesh 3 1 1 (negMesh 3 1 1 q) ∧ (originInversion site u).Rotated (meshK 3 1 1 q) (meshK 3 1 1 (negMesh 3 1 1 q)) := by
  refine ⟨negMesh_isMesh 3 1 1 q hq, fun R => ?_⟩
  show phase (-R) _ = _
  rw [phase_meshK, phase_meshK, om3_negMesh 3 1 1 _ q hq, om3_neg, star_star]

theorem phase_zero (k : Fin 3 → ℝ) : phase ((0 : V3) - 0) k = 1 := by simp [phase]

/-- Dynamical matrix of a chain. -/
noncomputable def chainD (q : V3) (a b : Fin 1 × Fin 3) : ℂ := if a = b then 2 - om3 3 1 1 (1, 0, 0) q - star (om3 3 1 1 (1, 0, 0) q) else 0

/-- Inversion changes the sign of displacements. -/
noncomputable def inverted (a a' : Fin 1 × Fin 3) : ℂ := if a = a' then -1 else 0

/-- A concrete case of `C171_ph_space_group_partial`. -/
example := C171_ph_space_group_partial 3 (by norm_num) 3 1 1 (by norm_num) one_pos one_pos (ortho 1 1) (fun _ : Fin 1 => fun _ => 0) (fun _ => 12)
  (by norm_num) true true chainD (originInversion (fun a : Fin 1 × Fin 3 => a.1) inverted)
  (originInversion_compatible _ _ _ (-1) (Or.inr rfl))
  (fun a a' => by
    show star (inverted a a') = inverted a a'
    by_cases h : a = a' <;> simp [inverted, h])
  (fun _ _ _ => rfl) (negMesh 3 1 1) (originInversion_rotated _ _)
  (fun q hq a b => by
    show _ = ∑ a', ∑ b', inverted a a' * star (inverted b b') * phase (0 - 0) _ * chainD q a' b'
    have hn : chainD (negMesh 3 1 1 q) a b = chainD q a b := by
      simp only [chainD, om3_negMesh 3 1 1 _ q hq, star_star]
      by_cases h : a = b <;> simp [h]
      ring
    rw [hn, phase_zero]
    have : ∀ a' b', inverted a a' * star (inverted b b') * 1 * chainD q a' b' = if a = a' then (if b = b' then chainD q a' b' else 0) else 0 := by
      intro a' b'
      by_cases h : a = a' <;> by_cases h' : b = b' <;> simp [inverted, h, h']
    simp only [this]
    simp)

/-- Coupling that is odd under inversion. -/
noncomputable def chainG (q : V3) (_ : Fin 1 × Fin 3) (k : V3) (_ _ : Fin 1) : ℂ :=
  om3 3 1 1 (1, 0, 0) q * om3 3 1 1 (1, 0, 0) k - star (om3 3 1 1 (1, 0, 0) q * om3 3 1 1 (1, 0, 0) k)

theorem chainG_neg (q k : V3) (hq : IsMesh 3 1 1 q) (hk : IsMesh 3 1 1 k) (x : Fin 1 × Fin 3) (a b : Fin 1) :
    chainG (negMesh 3 1 1 q) x (negMesh 3 1 1 k) a b = star (chainG q x k a b) ∧
    chainG (negMesh 3 1 1 q) x (negMesh 3 1 1 k) a b = -chainG q x k a b := by
  simp only [chainG, om3_negMesh 3 1 1 _ q hq, om3_negMesh 3 1 1 _ k hk, star_sub, star_mul', star_star]
  exact ⟨trivial, by ring⟩

/-- Inversion of an orbital and of displacements. -/
noncomputable def invertedAll (a a' : Fin 1 ⊕ (Fin 1 × Fin 3)) : ℂ := if a = a' then (if a.isLeft then 1 else -1) else 0

/-- A concrete case of `C171_elph_time_reversal`. -/
example (q k : Fin 3 → ℝ) := C171_elph_time_reversal 3 (by norm_num) 3 1 1 3 1 1 (by norm_num) one_pos one_pos (by norm_num) one_pos one_pos (ortho 1 1)
  (fun _ : Fin 1 => fun _ => 0) (fun _ : Fin 1 => fun _ => 0) (fun _ => 12) true false chainG
  (fun q k hq hk x a b => (chainG_neg q k hq hk x a b).1) q k

theorem sites_origin : allSites (fun _ : Fin 1 => fun _ => 0) (fun _ : Fin 1 => fun _ => 0) = fun _ => fun _ => (0 : ℝ) := by
  funext s
  cases s <;> rfl

/-- `originInversion` for orbitals and atoms. -/
noncomputable def chainInversion :
    Operation (ortho 1 1) (allSites (fun _ : Fin 1 => fun _ => 0) (fun _ : Fin 1 => fun _ => 0)) (siteOf (n := 1) (p := 1)) where
  O := fun x y => if x = y then -1 else 0
  S := AddEquiv.neg V3
  τ := fun _ => 0
  u := invertedAll
  t := fun _ _ => 0
  isometry := fun v => by simp
  lattice := fun R x => by
    simp [cart]
    ring
  sites := fun a a' _ x => by rw [sites_origin]; simp [cart]

theorem chainInversion_compatible (kind : Fin 1 ⊕ (Fin 1 × Fin 3) → Fin 1 ⊕ (Fin 1 × Fin 3) → Prop) :
    chainInversion.Compatible kind 1 3 1 1 := by
  have h := originInversion_compatible (siteOf (n := 1) (p := 1)) invertedAll kind 1 (Or.inl rfl)
  have hl : ∀ s s', bondLength (ortho 1 1) (allSites (fun _ : Fin 1 => fun _ => 0) (fun _ : Fin 1 => fun _ => 0) s)
      (allSites (fun _ : Fin 1 => fun _ => 0) (fun _ : Fin 1 => fun _ => 0) s') = bondLength (ortho 1 1) (fun _ => 0) (fun _ => 0) := by
    intro s s'
    rw [sites_origin]
  refine ⟨h.supercell, fun a b a' b' hk ha hb R hR => ?_, fun a b a' b' hk ha hb R hR => ?_⟩
  · rw [hl] at hR
    exact h.range a b a' b' hk ha hb R hR
  · rw [hl] at hR
    exact h.range' a b a' b' hk ha hb R hR

/-- A concrete case of `C171_elph_space_group_partial`. -/
example (q k q' k' : Fin 3 → ℝ) (hq : chainInversion.Rotated q q') (hk : chainInversion.Rotated k k') :=
  C171_elph_space_group_partial 3 (by norm_num) 3 1 1 3 1 1 (by norm_num) one_pos one_pos (by norm_num) one_pos one_pos (ortho 1 1)
  (fun _ : Fin 1 => fun _ => 0) (fun _ : Fin 1 => fun _ => 0) (fun _ => 12) true false chainG chainInversion (chainInversion_compatible _)
  (chainInversion_compatible _) (fun _ _ _ => rfl) (negMesh 3 1 1) (negMesh 3 1 1)
  (fun q hq => originInversion_rotated (siteOf (n := 1) (p := 1)) invertedAll q hq)
  (fun q hq => originInversion_rotated (siteOf (n := 1) (p := 1)) invertedAll q hq)
  (fun q k hq hk x a b => by
    dsimp only
    rw [(chainG_neg q k hq hk x a b).2]
    show _ = ∑ x', ∑ a', ∑ b', invertedAll (.inr x) (.inr x') * (invertedAll (.inl a) (.inl a') * star (invertedAll (.inl b) (.inl b'))) *
      (phase (0 - 0) _ * phase (0 - 0) _) * chainG q x' k a' b'
    rw [phase_zero, phase_zero]
    obtain rfl : a = 0 := Subsingleton.elim _ _
    obtain rfl : b = 0 := Subsingleton.elim _ _
    have : ∀ x', invertedAll (.inr x) (.inr x') * (invertedAll (.inl 0) (.inl 0) * star (invertedAll (.inl 0) (.inl 0))) *
        ((1 : ℂ) * 1) * chainG q x' k 0 0 = if x = x' then -chainG q x' k 0 0 else 0 := by
      intro x'
      by_cases h : x = x' <;> simp [invertedAll, h]
    simp only [Fin.sum_univ_one, this]
    simp)
  q k q' k' hq hk

end Verif.Fourier
