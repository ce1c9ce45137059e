import Verif.Fourier.Lemmas
import Mathlib.Analysis.Complex.Norm

/-! # Properties C28, C29 -/

namespace Verif.Fourier

open Verif.Voronoi

/-! ## C28 -/

theorem shortRange_bloch {n c : Nat} (size : Nat) (hsize : 0 < size) (n1 n2 n3 : Nat) (h1 : 0 < n1)
    (h2 : 0 < n2) (h3 : 0 < n3) (at' : Fin 3 → Fin 3 → ℝ) (tau : Fin n → Fin 3 → ℝ) (sgn : Int)
    (hs : sgn = 1 ∨ sgn = -1) (data : Fin n → Fin n → V3 → Fin c → Fin c → ℂ) :
    ∃ l, shortRange size n1 n2 n3 at' tau sgn true data = some l ∧ ∀ (k : V3) (a b : Fin n × Fin c),
      bloch l (meshK n1 n2 n3 k) a b = ((mesh3 n1 n2 n3).map fun m => data a.1 b.1 m a.2 b.2 *
        om3 n1 n2 n3 (sgn * m.1, sgn * m.2.1, sgn * m.2.2) k).sum := by
  refine ⟨_, Verif.MPI.C02_parMap size hsize _ _, ?_⟩
  intro k a b
  unfold bloch
  rw [List.map_map]
  set ws := wigner size n1 n2 n3 at' tau tau (1e-7) sgn 2 with hws
  have key := sum_class sgn hs n1 n2 n3 h1 h2 h3 a.1 b.1
    (fun m => data a.1 b.1 m a.2 b.2 * om3 n1 n2 n3 (sgn * m.1, sgn * m.2.1, sgn * m.2.2) k) ws
  have hw : ((mesh3 n1 n2 n3).map fun m => (data a.1 b.1 m a.2 b.2 *
      om3 n1 n2 n3 (sgn * m.1, sgn * m.2.1, sgn * m.2.2) k) *
        ((weight3 sgn n1 n2 n3 m a.1 b.1 ws : ℚ) : ℂ)) =
      ((mesh3 n1 n2 n3).map fun m => data a.1 b.1 m a.2 b.2 *
        om3 n1 n2 n3 (sgn * m.1, sgn * m.2.1, sgn * m.2.2) k) := by
    apply List.map_congr_left
    intro m hm
    rw [hws, C27_wigner size hsize n1 n2 n3 at' tau tau (1e-7) (by norm_num) sgn hs 2 (by norm_num) m
      ((mem_mesh3 _ _ _ _).1 hm) a.1 b.1]
    simp
  rw [hw] at key
  rw [← key]
  congr 1
  apply List.map_congr_left
  intro e _
  simp only [Function.comp, constBlock, if_true, phase_meshK]
  rw [om3_meshIndex sgn hs n1 n2 n3 h1 h2 h3 e.1 k]
  by_cases he : e.2 a.1 b.1 = 0
  · simp [he]
  · rw [if_pos he]; ring

/-- Factor between the units of the sampled matrix and those of the model. -/
noncomputable def unitFactor (rydberg elRydberg : Bool) (Ry : ℝ) : ℂ :=
  match rydberg, elRydberg with
  | true, false => (Ry : ℂ)
  | false, true => 1 / (Ry : ℂ)
  | _, _ => 1

theorem hoppings_sum {n : Nat} (n1 n2 n3 : Nat) (H : V3 → Fin n → Fin n → ℂ) (k : V3)
    (hk : IsMesh n1 n2 n3 k) (a b : Fin n) :
    ((mesh3 n1 n2 n3).map fun m => hoppings n1 n2 n3 H a b m 0 0 *
      om3 n1 n2 n3 (1 * m.1, 1 * m.2.1, 1 * m.2.2) k).sum = H k a b := by
  have := dft_inversion n1 n2 n3 (fun k => star (H k a b)) k hk
  have h2 := congrArg star this
  rw [list_star_sum, List.map_map, star_star] at h2
  rw [← h2]
  congr 1
  apply List.map_congr_left
  intro m _
  simp only [Function.comp, hoppings, star_mul', star_star, one_mul]

/-- C28 (electrons). For every number of processes, mesh, geometry and sampled matrix, the
Hamiltonian of the model set up by `k2r` is the sampled matrix (in the units of the model) at every
mesh point. -/
theorem C28_k2r {n : Nat} (size : Nat) (hsize : 0 < size) (n1 n2 n3 : Nat)
    (at' : Fin 3 → Fin 3 → ℝ) (r : Fin n → Fin 3 → ℝ) (rydberg elRydberg : Bool) (Ry : ℝ)
    (H : V3 → Fin n → Fin n → ℂ) :
    ∃ l, k2r size n1 n2 n3 at' r true rydberg elRydberg true Ry H = some l ∧
      ∀ k, IsMesh n1 n2 n3 k → ∀ a b, bloch l (meshK n1 n2 n3 k) a b =
        unitFactor rydberg elRydberg Ry * H k a b := by
  by_cases hpos : 0 < n1 ∧ 0 < n2 ∧ 0 < n3
  · obtain ⟨h1, h2, h3⟩ := hpos
    obtain ⟨l, hl, hb⟩ := shortRange_bloch (c := 1) size hsize n1 n2 n3 h1 h2 h3 at' r 1 (Or.inl rfl)
      (hoppings n1 n2 n3 H)
    refine ⟨_, by rw [k2r, if_pos rfl, hl, Option.map_some], ?_⟩
    intro k hk a b
    have hval := hb k (a, 0) (b, 0)
    rw [hoppings_sum n1 n2 n3 H k hk a b] at hval
    rw [← hval]
    unfold bloch
    rw [List.map_map, ← List.sum_map_mul_left]
    congr 1
    apply List.map_congr_left
    intro e _
    cases rydberg <;> cases elRydberg <;> simp [unitFactor] <;> ring
  · refine ⟨_, by rw [k2r, shortRange, Verif.MPI.C02_parMap size hsize, Option.map_some], ?_⟩
    intro k hk
    exfalso
    apply hpos
    obtain ⟨⟨h1, h2⟩, ⟨h3, h4⟩, h5, h6⟩ := hk
    omega

/-- C28 (Coulomb interaction). -/
theorem C28_elel {n : Nat} (size : Nat) (hsize : 0 < size) (n1 n2 n3 : Nat)
    (at' : Fin 3 → Fin 3 → ℝ) (r : Fin n → Fin 3 → ℝ) (W : V3 → Fin n → Fin n → ℂ) :
    ∃ l, elelQ2r size n1 n2 n3 at' r true W = some l ∧
      ∀ k, IsMesh n1 n2 n3 k → ∀ a b, bloch l (meshK n1 n2 n3 k) a b = W k a b := by
  obtain ⟨l, hl, hb⟩ := C28_k2r size hsize n1 n2 n3 at' r false false 1 W
  refine ⟨l, ?_, fun k hk a b => by rw [hb k hk a b]; exact one_mul _⟩
  rw [← hl]
  simp [elelQ2r, k2r]

/-- C28 (models from real-space data, `fft=False`). The model is the Fourier transform of the
given data at every mesh point. -/
theorem C28_real_space {n : Nat} (size : Nat) (hsize : 0 < size) (n1 n2 n3 : Nat) (h1 : 0 < n1)
    (h2 : 0 < n2) (h3 : 0 < n3) (at' : Fin 3 → Fin 3 → ℝ) (r : Fin n → Fin 3 → ℝ)
    (t : V3 → Fin n → Fin n → ℂ) :
    ∃ l, elelQ2r size n1 n2 n3 at' r false t = some l ∧
      ∀ k a b, bloch l (meshK n1 n2 n3 k) a b = ∑ m1 ∈ Finset.range n1, ∑ m2 ∈ Finset.range n2,
        ∑ m3 ∈ Finset.range n3, t ((m1 : Int), (m2 : Int), (m3 : Int)) a b *
          Complex.exp (2 * Real.pi * Complex.I * (m1 * k.1 / n1 + m2 * k.2.1 / n2 + m3 * k.2.2 / n3)) := by
  obtain ⟨l, hl, hb⟩ := shortRange_bloch (c := 1) size hsize n1 n2 n3 h1 h2 h3 at' r 1 (Or.inl rfl)
    (fun a b m _ _ => t m a b)
  refine ⟨_, by simp only [elelQ2r, Bool.false_eq_true, if_false]; rw [hl, Option.map_some], ?_⟩
  intro k a b
  have hval := hb k (a, 0) (b, 0)
  rw [sum_mesh3] at hval
  have : bloch (l.map fun e => (e.1, fun a b => e.2 (a, (0 : Fin 1)) (b, 0))) (meshK n1 n2 n3 k) a b =
      bloch l (meshK n1 n2 n3 k) (a, 0) (b, 0) := by
    unfold bloch
    rw [List.map_map]
    rfl
  rw [this, hval]
  refine Finset.sum_congr rfl fun m1 _ => Finset.sum_congr rfl fun m2 _ =>
    Finset.sum_congr rfl fun m3 _ => ?_
  simp only [om3, om, one_mul]
  rw [← Complex.exp_add, ← Complex.exp_add]
  congr 2
  push_cast
  ring

/-- The mesh point `-k`. -/
def negMesh (n1 n2 n3 : Nat) (k : V3) : V3 := (-k.1 % n1, -k.2.1 % n2, -k.2.2 % n3)

/-- Factor between sampled and stored normalisation of dynamical matrices. -/
noncomputable def massFactor (divideMass phDivideMass : Bool) (Ma Mb : ℝ) : ℂ :=
  match divideMass, phDivideMass with
  | true, false => ((Real.sqrt Ma * Real.sqrt Mb : ℝ) : ℂ)
  | false, true => ((1 / (Real.sqrt Ma * Real.sqrt Mb) : ℝ) : ℂ)
  | _, _ => 1

theorem negMesh_isMesh (n1 n2 n3 : Nat) (k : V3) (hk : IsMesh n1 n2 n3 k) :
    IsMesh n1 n2 n3 (negMesh n1 n2 n3 k) := by
  obtain ⟨⟨h1, h2⟩, ⟨h3, h4⟩, h5, h6⟩ := hk
  have := meshIndex_isMesh (-1) n1 n2 n3 (by omega) (by omega) (by omega) k
  simpa [meshIndex, negMesh] using this

theorem om3_negMesh (n1 n2 n3 : Nat) (m k : V3) (hk : IsMesh n1 n2 n3 k) :
    om3 n1 n2 n3 m (negMesh n1 n2 n3 k) = star (om3 n1 n2 n3 m k) := by
  have key : ∀ (n : Nat) (_ : 0 < n) (x y : Int), om n (x * (-y % n)) = om n (-(x * y)) := by
    intro n hn x y
    apply om_congr n hn
    have := Int.emod_add_mul_ediv (-y) n
    refine ⟨-x * (-y / n), ?_⟩
    linear_combination x * this
  obtain ⟨⟨h1, h2⟩, ⟨h3, h4⟩, h5, h6⟩ := hk
  simp only [om3, negMesh, star_mul', om_star]
  rw [key n1 (by omega), key n2 (by omega), key n3 (by omega)]

theorem re_sum (n1 n2 n3 : Nat) (f : V3 → ℂ) (k : V3) (hk : IsMesh n1 n2 n3 k) :
    ((mesh3 n1 n2 n3).map fun m => ((ifftn n1 n2 n3 f m).re : ℂ) *
      om3 n1 n2 n3 (-1 * m.1, -1 * m.2.1, -1 * m.2.2) k).sum =
      (f k + star (f (negMesh n1 n2 n3 k))) / 2 := by
  have e1 := dft_inversion n1 n2 n3 f k hk
  have e2 := congrArg star (dft_inversion n1 n2 n3 f _ (negMesh_isMesh n1 n2 n3 k hk))
  rw [list_star_sum, List.map_map] at e2
  rw [← e1, ← e2, ← List.sum_map_add, div_eq_mul_inv, ← List.sum_map_mul_right]
  congr 1
  apply List.map_congr_left
  intro m _
  have h3 : om3 n1 n2 n3 (-1 * m.1, -1 * m.2.1, -1 * m.2.2) k = star (om3 n1 n2 n3 m k) := by
    simp only [om3, star_mul', om_star, neg_mul, one_mul]
  simp only [Function.comp, om3_negMesh _ _ _ _ _ hk, star_mul', star_star, h3]
  rw [Complex.re_eq_add_conj, Complex.star_def]
  ring

/-- C28 (phonons). The dynamical matrix of the model set up by `q2r` from a full mesh is the mean of
the sampled matrix at `q` and of the complex conjugate of the sampled matrix at `-q`, with the
normalisation of the model. -/
theorem C28_ph_general {n : Nat} (size : Nat) (hsize : 0 < size) (n1 n2 n3 : Nat)
    (at' : Fin 3 → Fin 3 → ℝ) (r : Fin n → Fin 3 → ℝ) (M : Fin n → ℝ) (hM : ∀ a, 0 < M a)
    (divideMass phDivideMass : Bool) (D : V3 → Fin n × Fin 3 → Fin n × Fin 3 → ℂ) :
    ∃ l, phQ2r size n1 n2 n3 at' r M divideMass phDivideMass true D = some l ∧
      ∀ q, IsMesh n1 n2 n3 q → ∀ a b, bloch l (meshK n1 n2 n3 q) a b =
        massFactor divideMass phDivideMass (M a.1) (M b.1) *
          ((D q a b + star (D (negMesh n1 n2 n3 q) a b)) / 2) := by
  by_cases hpos : 0 < n1 ∧ 0 < n2 ∧ 0 < n3
  · obtain ⟨h1, h2, h3⟩ := hpos
    obtain ⟨l, hl, hb⟩ := shortRange_bloch (c := 3) size hsize n1 n2 n3 h1 h2 h3 at' r (-1) (Or.inr rfl)
      (phid n1 n2 n3 divideMass M D)
    refine ⟨_, by rw [phQ2r, hl, Option.map_some], ?_⟩
    intro q hq a b
    have hval := hb q a b
    have hre := re_sum n1 n2 n3 (fun q => D q (a.1, a.2) (b.1, b.2)) q hq
    have ha : (Real.sqrt (M a.1) : ℂ) ≠ 0 := by
      exact_mod_cast (Real.sqrt_pos.2 (hM a.1)).ne'
    have hb' : (Real.sqrt (M b.1) : ℂ) ≠ 0 := by
      exact_mod_cast (Real.sqrt_pos.2 (hM b.1)).ne'
    have hD : bloch l (meshK n1 n2 n3 q) a b =
        (if divideMass then (Real.sqrt (M a.1) : ℂ) * (Real.sqrt (M b.1) : ℂ) else 1) *
          ((D q a b + star (D (negMesh n1 n2 n3 q) a b)) / 2) := by
      have hre' : (D q a b + star (D (negMesh n1 n2 n3 q) a b)) / 2 = _ := hre.symm
      rw [hval, hre', ← List.sum_map_mul_left]
      congr 1
      apply List.map_congr_left
      intro m _
      cases divideMass <;> simp [phid] <;> ring
    have hsc : bloch (l.map fun e => (e.1, if phDivideMass then byMass M e.2 else e.2))
        (meshK n1 n2 n3 q) a b =
        (if phDivideMass then 1 / ((Real.sqrt (M a.1) : ℂ) * (Real.sqrt (M b.1) : ℂ)) else 1) *
          bloch l (meshK n1 n2 n3 q) a b := by
      unfold bloch
      rw [List.map_map, ← List.sum_map_mul_left]
      congr 1
      apply List.map_congr_left
      intro e _
      cases phDivideMass
      · simp
      · simp only [Function.comp, byMass, if_true]
        field_simp
    rw [hsc, hD]
    cases divideMass <;> cases phDivideMass <;> simp [massFactor]
    field_simp
  · refine ⟨_, by rw [phQ2r, shortRange, Verif.MPI.C02_parMap size hsize, Option.map_some], ?_⟩
    intro k hk
    exfalso
    apply hpos
    obtain ⟨⟨h1, h2⟩, ⟨h3, h4⟩, h5, h6⟩ := hk
    omega

/-- C28 (phonons). If the sampled matrices at `q` and `-q` are complex conjugate (real force
constants), the dynamical matrix of the model is the sampled matrix at every mesh point. -/
theorem C28_ph {n : Nat} (size : Nat) (hsize : 0 < size) (n1 n2 n3 : Nat)
    (at' : Fin 3 → Fin 3 → ℝ) (r : Fin n → Fin 3 → ℝ) (M : Fin n → ℝ) (hM : ∀ a, 0 < M a)
    (divideMass phDivideMass : Bool) (D : V3 → Fin n × Fin 3 → Fin n × Fin 3 → ℂ)
    (hD : ∀ q, IsMesh n1 n2 n3 q → ∀ a b, D (negMesh n1 n2 n3 q) a b = star (D q a b)) :
    ∃ l, phQ2r size n1 n2 n3 at' r M divideMass phDivideMass true D = some l ∧
      ∀ q, IsMesh n1 n2 n3 q → ∀ a b, bloch l (meshK n1 n2 n3 q) a b =
        massFactor divideMass phDivideMass (M a.1) (M b.1) * D q a b := by
  obtain ⟨l, hl, hb⟩ := C28_ph_general size hsize n1 n2 n3 at' r M hM divideMass phDivideMass D
  refine ⟨l, hl, fun q hq a b => ?_⟩
  rw [hb q hq a b, hD q hq a b, star_star]
  ring

/-- C28 (electron-phonon coupling). The coupling of the model set up by `elph.q2r` is the sampled
coupling (with the normalisation of the model) at all pairs of mesh points. -/
theorem C28_elph {n p : Nat} (size : Nat) (hsize : 0 < size) (nq1 nq2 nq3 nk1 nk2 nk3 : Nat)
    (at' : Fin 3 → Fin 3 → ℝ) (r : Fin n → Fin 3 → ℝ) (τ : Fin p → Fin 3 → ℝ) (M : Fin p → ℝ)
    (divideMass elphDivideMass : Bool) (g : V3 → Fin p × Fin 3 → V3 → Fin n → Fin n → ℂ)
    (q k : V3) (hq : IsMesh nq1 nq2 nq3 q) (hk : IsMesh nk1 nk2 nk3 k)
    (x : Fin p × Fin 3) (a b : Fin n) :
    let m := elphQ2r size nq1 nq2 nq3 nk1 nk2 nk3 at' r τ M divideMass elphDivideMass g
    coupling m.1 m.2.1 m.2.2 (meshK nq1 nq2 nq3 q) (meshK nk1 nk2 nk3 k) x a b =
      (match divideMass, elphDivideMass with
        | true, false => (Real.sqrt (M x.1) : ℂ)
        | false, true => 1 / (Real.sqrt (M x.1) : ℂ)
        | _, _ => 1) * g q x k a b := by
  intro m
  obtain ⟨⟨h1, h1'⟩, ⟨h2, h2'⟩, h3, h3'⟩ := id hq
  obtain ⟨⟨k1, k1'⟩, ⟨k2, k2'⟩, k3, k3'⟩ := id hk
  have pq1 : 0 < nq1 := by omega
  have pq2 : 0 < nq2 := by omega
  have pq3 : 0 < nq3 := by omega
  have pk1 : 0 < nk1 := by omega
  have pk2 : 0 < nk2 := by omega
  have pk3 : 0 < nk3 := by omega
  set C := couplingDFT nq1 nq2 nq3 nk1 nk2 nk3 (fun q k => g q x k a b) with hC
  set F : ℂ := (match divideMass, elphDivideMass with
        | true, false => (Real.sqrt (M x.1) : ℂ)
        | false, true => 1 / (Real.sqrt (M x.1) : ℂ)
        | _, _ => 1) with hF
  set Wg := wigner size nq1 nq2 nq3 at' r τ (1e-7) 1 2 with hWg
  set Wk := wigner size nk1 nk2 nk3 at' r r (1e-7) 1 2 with hWk
  have hdata : ∀ eg ek, m.2.2 eg x ek a b =
      F * (C (meshIndex 1 nq1 nq2 nq3 eg.1) (meshIndex 1 nk1 nk2 nk3 ek.1) /
        (ek.2 a b : ℂ) / (eg.2 a x.1 : ℂ)) := by
    intro eg ek
    have hdd : ∀ (dk dg : Nat) (z : ℂ), divideDegeneracy dk dg z = z / (dk : ℂ) / (dg : ℂ) := by
      intro dk dg z
      unfold divideDegeneracy
      by_cases hd : dk = 0 <;> by_cases hd' : dg = 0 <;> simp [hd, hd']
    simp only [m, elphQ2r, hdd, ← hC, hF]
    cases divideMass <;> cases elphDivideMass <;> simp <;> ring
  have inner : ∀ ek : V3 × (Fin n → Fin n → Nat),
      (m.1.map fun eg => m.2.2 eg x ek a b * phase eg.1 (meshK nq1 nq2 nq3 q)).sum =
      F * (((mesh3 nq1 nq2 nq3).map fun mq => C mq (meshIndex 1 nk1 nk2 nk3 ek.1) *
        om3 nq1 nq2 nq3 mq q).sum / (ek.2 a b : ℂ)) := by
    intro ek
    have key := sum_class 1 (Or.inl rfl) nq1 nq2 nq3 pq1 pq2 pq3 a x.1
      (fun mq => F * (C mq (meshIndex 1 nk1 nk2 nk3 ek.1) / (ek.2 a b : ℂ)) * om3 nq1 nq2 nq3 mq q) Wg
    have hm1 : m.1 = Wg := rfl
    rw [hm1]
    have e1 : (Wg.map fun eg => m.2.2 eg x ek a b * phase eg.1 (meshK nq1 nq2 nq3 q)) =
        Wg.map fun eg => (F * (C (meshIndex 1 nq1 nq2 nq3 eg.1) (meshIndex 1 nk1 nk2 nk3 ek.1) /
          (ek.2 a b : ℂ)) * om3 nq1 nq2 nq3 (meshIndex 1 nq1 nq2 nq3 eg.1) q) / (eg.2 a x.1 : ℂ) := by
      apply List.map_congr_left
      intro eg _
      rw [hdata, phase_meshK, om3_meshIndex 1 (Or.inl rfl) nq1 nq2 nq3 pq1 pq2 pq3 eg.1 q]
      simp only [one_mul]
      ring
    rw [e1, key, div_eq_mul_inv, ← List.sum_map_mul_right, ← List.sum_map_mul_left]
    congr 1
    apply List.map_congr_left
    intro mq hmq
    rw [hWg, C27_wigner size hsize nq1 nq2 nq3 at' r τ (1e-7) (by norm_num) 1 (Or.inl rfl) 2
      (by norm_num) mq ((mem_mesh3 _ _ _ _).1 hmq) a x.1]
    push_cast
    ring
  unfold coupling
  simp only [inner]
  have hm2 : m.2.1 = Wk := rfl
  rw [hm2]
  have key := sum_class 1 (Or.inl rfl) nk1 nk2 nk3 pk1 pk2 pk3 a b
    (fun mk => F * ((mesh3 nq1 nq2 nq3).map fun mq => C mq mk * om3 nq1 nq2 nq3 mq q).sum *
      om3 nk1 nk2 nk3 mk k) Wk
  have e2 : (Wk.map fun ek => F * (((mesh3 nq1 nq2 nq3).map fun mq =>
      C mq (meshIndex 1 nk1 nk2 nk3 ek.1) * om3 nq1 nq2 nq3 mq q).sum / (ek.2 a b : ℂ)) *
        phase ek.1 (meshK nk1 nk2 nk3 k)) =
      Wk.map fun ek => (F * ((mesh3 nq1 nq2 nq3).map fun mq =>
        C mq (meshIndex 1 nk1 nk2 nk3 ek.1) * om3 nq1 nq2 nq3 mq q).sum *
        om3 nk1 nk2 nk3 (meshIndex 1 nk1 nk2 nk3 ek.1) k) / (ek.2 a b : ℂ) := by
    apply List.map_congr_left
    intro ek _
    rw [phase_meshK, om3_meshIndex 1 (Or.inl rfl) nk1 nk2 nk3 pk1 pk2 pk3 ek.1 k]
    simp only [one_mul]
    ring
  rw [e2, key]
  have e3 : ((mesh3 nk1 nk2 nk3).map fun mk => (F * ((mesh3 nq1 nq2 nq3).map fun mq =>
      C mq mk * om3 nq1 nq2 nq3 mq q).sum * om3 nk1 nk2 nk3 mk k) *
        ((weight3 1 nk1 nk2 nk3 mk a b Wk : ℚ) : ℂ)) =
      (mesh3 nk1 nk2 nk3).map fun mk => F * (star (ifftn nk1 nk2 nk3 (fun k => star (g q x k a b)) mk) *
        om3 nk1 nk2 nk3 mk k) := by
    apply List.map_congr_left
    intro mk hmk
    rw [hWk, C27_wigner size hsize nk1 nk2 nk3 at' r r (1e-7) (by norm_num) 1 (Or.inl rfl) 2
      (by norm_num) mk ((mem_mesh3 _ _ _ _).1 hmk) a b]
    have := congrArg star (dft_inversion nq1 nq2 nq3
      (fun q => ifftn nk1 nk2 nk3 (fun k => star (g q x k a b)) mk) q hq)
    rw [list_star_sum, List.map_map] at this
    rw [← this]
    have e4 : ((mesh3 nq1 nq2 nq3).map fun mq => C mq mk * om3 nq1 nq2 nq3 mq q) =
        (mesh3 nq1 nq2 nq3).map (star ∘ fun m => ifftn nq1 nq2 nq3
          (fun q => ifftn nk1 nk2 nk3 (fun k => star (g q x k a b)) mk) m *
            star (om3 nq1 nq2 nq3 m q)) := by
      apply List.map_congr_left
      intro mq _
      simp only [Function.comp, star_mul', star_star, hC, couplingDFT]
    rw [e4]
    push_cast
    ring
  rw [e3, List.sum_map_mul_left]
  have := congrArg star (dft_inversion nk1 nk2 nk3 (fun k => star (g q x k a b)) k hk)
  rw [list_star_sum, List.map_map, star_star] at this
  rw [← this]
  congr 2
  apply List.map_congr_left
  intro mk _
  simp only [Function.comp, star_mul', star_star]

example : IsMesh 4 3 2 (3, 1, 1) ∧ negMesh 4 3 2 (3, 1, 1) = (1, 2, 1) := by
  simp [IsMesh, negMesh]

/-- A sampled dynamical matrix meeting the hypothesis of `C28_ph` (linear chain). -/
example : ∀ q, IsMesh 4 1 1 q → ∀ a b : Fin 1 × Fin 3,
    (fun (q : V3) (_ _ : Fin 1 × Fin 3) => om 4 q.1 + 2) (negMesh 4 1 1 q) a b =
      star ((fun (q : V3) (_ _ : Fin 1 × Fin 3) => om 4 q.1 + 2) q a b) := by
  intro q _ a b
  simp only [negMesh, star_add, om_star]
  rw [om_congr 4 (by norm_num) (-q.1 % ((4 : Nat) : Int)) (-q.1)]
  · simp [Complex.star_def]
  · have := Int.emod_add_mul_ediv (-q.1) ((4 : Nat) : Int)
    exact ⟨-(-q.1 / ((4 : Nat) : Int)), by linear_combination this⟩

/-! ## C29 -/

theorem voronoi_sum {A : Type} (s : Finset P) (hs : s.Nonempty) (f : P → ℂ) (c v : ℂ)
    (hf : ∀ p ∈ s, f p = v) (g : A → P) :
    ((s.toList.map fun q => (q, c / (s.card : ℂ))).map fun e => f e.1 * e.2).sum = v * c := by
  rw [List.map_map]
  have : (s.toList.map ((fun e : P × ℂ => f e.1 * e.2) ∘ fun q => (q, c / (s.card : ℂ)))) =
      s.toList.map fun _ => v * (c / (s.card : ℂ)) := by
    apply List.map_congr_left
    intro q hq
    simp only [Function.comp]
    rw [hf q (Finset.mem_toList.1 hq)]
  rw [this, List.map_const', List.sum_replicate, Finset.length_toList, nsmul_eq_mul]
  have : (s.card : ℂ) ≠ 0 := by exact_mod_cast (Finset.card_pos.2 hs).ne'
  field_simp

theorem mesh3_flat (N : Nat) :
    mesh3 N N 1 = (meshPoints N).map fun p => ((p.1, p.2, 0) : V3) := by
  unfold mesh3 meshPoints
  rw [List.map_flatMap]
  congr 1
  funext a
  rw [List.map_map]
  induction List.range N with
  | nil => rfl
  | cons b l ih => rw [List.flatMap_cons, List.map_cons, ih]; rfl

theorem transform_eq (N : Nat) (s : Int) (i j : Int) :
    transform N (s : ℝ) i j = om N (s * (i * j)) / (N : ℂ) := by
  unfold transform om
  congr 2
  push_cast
  ring

theorem coefficients_eq (N : Nat) (s : Int) (data : Int → Int → ℂ) (n m : Int) :
    coefficients N (s : ℝ) data n m =
      ((meshPoints N).map fun p => data p.1 p.2 * om N (s * (n * p.1 + m * p.2))).sum / ((N : ℂ) * N) := by
  unfold coefficients
  rw [div_eq_mul_inv, ← List.sum_map_mul_right]
  congr 1
  apply List.map_congr_left
  intro p _
  rw [transform_eq, transform_eq, show s * (n * p.1 + m * p.2) = s * (n * p.1) + s * (p.2 * m) by ring,
    om_add]
  by_cases hN : (N : ℂ) = 0
  · simp [hN]
  · field_simp

theorem coefficients_ifftn_pos (N : Nat) (data : Int → Int → ℂ) (n m : Int) :
    coefficients N ((1 : Int) : ℝ) data n m = ifftn N N 1 (fun k => data k.1 k.2.1) (n, m, 0) := by
  rw [coefficients_eq, ifftn_eq, mesh3_flat, List.map_map]
  simp only [Nat.cast_one, mul_one]
  congr 2
  apply List.map_congr_left
  intro p _
  simp only [Function.comp, om3, mul_zero, om_zero, mul_one, ← om_add, one_mul]
  congr 2
  ring

theorem coefficients_ifftn_neg (N : Nat) (data : Int → Int → ℂ) (n m : Int) :
    coefficients N ((-1 : Int) : ℝ) data n m =
      star (ifftn N N 1 (fun k => star (data k.1 k.2.1)) (n, m, 0)) := by
  rw [coefficients_eq, ifftn_eq, mesh3_flat, List.map_map, star_div₀, list_star_sum, List.map_map]
  simp only [Nat.cast_one, mul_one, star_mul', star_natCast]
  congr 2
  apply List.map_congr_left
  intro p _
  simp only [Function.comp, om3, mul_zero, om_zero, mul_one, ← om_add, star_mul', star_star, om_star]
  congr 2
  ring

/-- All terms together give the data. -/
theorem full_sum (N : Nat) (s : Int) (hs : s = 1 ∨ s = -1) (data : Int → Int → ℂ)
    (x y : Int) (hx : 0 ≤ x ∧ x < N) (hy : 0 ≤ y ∧ y < N) :
    ((meshPoints N).map fun p => om N (-s * (p.1 * x + p.2 * y)) *
      coefficients N (s : ℝ) data p.1 p.2).sum = data x y := by
  have hm : IsMesh N N 1 (x, y, 0) := ⟨hx, hy, by simp⟩
  rcases hs with rfl | rfl
  · have := dft_inversion N N 1 (fun k => data k.1 k.2.1) (x, y, 0) hm
    rw [mesh3_flat, List.map_map] at this
    simp only at this
    rw [← this]
    congr 1
    apply List.map_congr_left
    intro p _
    rw [coefficients_ifftn_pos]
    simp only [Function.comp, om3, mul_zero, om_zero, mul_one, ← om_add, om_star]
    rw [mul_comm]
    congr 2
    ring
  · have := congrArg star (dft_inversion N N 1 (fun k => star (data k.1 k.2.1)) (x, y, 0) hm)
    rw [list_star_sum, mesh3_flat, List.map_map, List.map_map] at this
    simp only [star_star] at this
    rw [← this]
    congr 1
    apply List.map_congr_left
    intro p _
    rw [coefficients_ifftn_neg]
    simp only [Function.comp, om3, mul_zero, om_zero, mul_one, ← om_add, star_mul', star_star]
    rw [mul_comm]
    congr 2
    ring

theorem interpolantSum_mesh (N : Nat) (hN : 0 < N) (angle : Angle) (s : Int) (thr : ℝ)
    (data : Int → Int → ℂ) (x y : Int) :
    interpolantSum N (s : ℝ) (interpolationTerms N angle (s : ℝ) thr data) (x : ℝ) (y : ℝ) =
      ((meshPoints N).map fun p => if ‖coefficients N (s : ℝ) data p.1 p.2‖ < thr then 0 else
        om N (-s * (p.1 * x + p.2 * y)) * coefficients N (s : ℝ) data p.1 p.2).sum := by
  unfold interpolantSum interpolationTerms
  rw [List.map_flatMap, sum_flatMap']
  congr 1
  apply List.map_congr_left
  intro p _
  split
  · simp
  · set f : P → ℂ := fun e => om N (-s * (e.1 * x + e.2 * y)) with hf
    have hphase : ∀ e : P, Complex.exp (-((s : ℝ) : ℂ) * (2 * Complex.I) * (Real.pi : ℂ) / (N : ℂ) *
        ((e.1 : ℂ) * ((x : ℝ) : ℂ) + (e.2 : ℂ) * ((y : ℝ) : ℂ))) = f e := by
      intro e
      simp only [hf, om]
      congr 1
      push_cast
      ring
    simp only [hphase]
    apply voronoi_sum (A := Unit) _ _ f _ _ _ (fun _ => (0, 0))
    · have := toVoronoi_nonempty p (N : Int) (flipAngle angle) (0 : ℝ) 0 0 (le_refl _)
      exact this
    · intro q hq
      have hq' := (mem_toVoronoi p (N : Int) (flipAngle angle) (0 : ℝ) 0 0 q).1 hq
      have he := voronoiImages_equiv p (N : Int) q hq'.1
      simp only [hf]
      apply om_congr N hN
      obtain ⟨⟨c, hc⟩, d, hd⟩ := he
      refine ⟨-s * (c * x + d * y), ?_⟩
      linear_combination -s * x * hc - s * y * hd

/-- C29 (bound). At every mesh point the interpolant differs from the real part of the data by at most
`1e-6` for each mesh point (coefficients below this threshold are dropped, line 1456). What is
missing for the full property: exactness, which does not hold (`C29_violated`). -/
theorem C29_bound_partial (N : Nat) (angle : Angle) (s : Int) (hs : s = 1 ∨ s = -1)
    (data : Int → Int → ℂ) (x y : Int) (hx : 0 ≤ x ∧ x < N) (hy : 0 ≤ y ∧ y < N) :
    |fourierInterpolation N angle (s : ℝ) data x y - (data x y).re| ≤ (N : ℝ) * N * 1e-6 := by
  have hN : 0 < N := by omega
  unfold fourierInterpolation
  rw [interpolantSum_mesh N hN angle s, ← full_sum N s hs data x y hx hy, ← Complex.sub_re]
  refine (Complex.abs_re_le_norm _).trans ?_
  have hlen : (meshPoints N).length = N * N := by simp [meshPoints]
  have key : ∀ (l : List P) (c : P → ℂ) (φ : P → ℂ) (_ : ∀ p, ‖φ p‖ = 1),
      ‖(l.map fun p => if ‖c p‖ < (1e-6 : ℝ) then 0 else φ p * c p).sum -
        (l.map fun p => φ p * c p).sum‖ ≤ l.length * 1e-6 := by
    intro l c φ hφ
    induction l with
    | nil => simp
    | cons p l ih =>
      simp only [List.map_cons, List.sum_cons, List.length_cons]
      have : ((if ‖c p‖ < (1e-6 : ℝ) then 0 else φ p * c p) +
          (l.map fun p => if ‖c p‖ < (1e-6 : ℝ) then 0 else φ p * c p).sum) -
          (φ p * c p + (l.map fun p => φ p * c p).sum) =
          ((if ‖c p‖ < (1e-6 : ℝ) then 0 else φ p * c p) - φ p * c p) +
          ((l.map fun p => if ‖c p‖ < (1e-6 : ℝ) then 0 else φ p * c p).sum -
            (l.map fun p => φ p * c p).sum) := by ring
      rw [this]
      refine (norm_add_le _ _).trans ?_
      have h2 : ‖(if ‖c p‖ < (1e-6 : ℝ) then 0 else φ p * c p) - φ p * c p‖ ≤ 1e-6 := by
        split
        · rename_i h
          rw [zero_sub, norm_neg, norm_mul, hφ, one_mul]
          exact h.le
        · rw [sub_self, norm_zero]; norm_num
      push_cast
      linarith
  have := key (meshPoints N) (fun p => coefficients N (s : ℝ) data p.1 p.2)
    (fun p => om N (-s * (p.1 * x + p.2 * y))) (fun p => norm_om _ _)
  rw [hlen] at this
  push_cast at this
  exact this

/-- Discrete Fourier coefficient of the data. -/
noncomputable def dftCoeff (N : Nat) (s : Int) (data : Int → Int → ℂ) (n m : Int) : ℂ :=
  (∑ i ∈ Finset.range N, ∑ j ∈ Finset.range N, data i j *
    Complex.exp (2 * Real.pi * Complex.I * (s * (n * i + m * j) / N))) / ((N : ℂ) * N)

theorem coefficients_dft (N : Nat) (s : Int) (data : Int → Int → ℂ) (n m : Int) :
    coefficients N (s : ℝ) data n m = dftCoeff N s data n m := by
  rw [coefficients_eq, dftCoeff]
  congr 1
  have := sum_mesh3 N N 1 (fun p : V3 => data p.1 p.2.1 * om N (s * (n * p.1 + m * p.2.1)))
  rw [mesh3_flat, List.map_map] at this
  simp only [Function.comp_def, Finset.range_one, Finset.sum_singleton] at this
  rw [this]
  refine Finset.sum_congr rfl fun i _ => Finset.sum_congr rfl fun j _ => ?_
  unfold om
  congr 2
  push_cast
  ring

/-- C29 (exactness without dropped coefficients). If no Fourier coefficient of the data is nonzero but
below `1e-6`, the interpolant yields the real part of the data at every mesh point. -/
theorem C29_exact_partial (N : Nat) (angle : Angle) (s : Int) (hs : s = 1 ∨ s = -1)
    (data : Int → Int → ℂ)
    (hc : ∀ n m : Int, 0 ≤ n ∧ n < N → 0 ≤ m ∧ m < N →
      dftCoeff N s data n m = 0 ∨ 1e-6 ≤ ‖dftCoeff N s data n m‖)
    (x y : Int) (hx : 0 ≤ x ∧ x < N) (hy : 0 ≤ y ∧ y < N) :
    fourierInterpolation N angle (s : ℝ) data x y = (data x y).re := by
  have hN : 0 < N := by omega
  unfold fourierInterpolation
  rw [interpolantSum_mesh N hN angle s, ← full_sum N s hs data x y hx hy]
  congr 2
  apply List.map_congr_left
  intro p hp
  have hp' := (mem_meshPoints N p).1 hp
  rw [coefficients_dft]
  rcases hc p.1 p.2 (by omega) (by omega) with h | h
  · rw [h]; simp
  · rw [if_neg (not_lt.2 h)]

/-- C29 does not hold for small data: the interpolant of the constant `1e-7` is zero. -/
theorem C29_violated (angle : Angle) :
    fourierInterpolation 1 angle (((-1 : Int)) : ℝ) (fun _ _ => ((1e-7 : ℝ) : ℂ)) (0 : Int) (0 : Int) ≠
      1e-7 := by
  unfold fourierInterpolation
  rw [interpolantSum_mesh 1 (by norm_num) angle (-1)]
  have : coefficients 1 ((-1 : Int) : ℝ) (fun _ _ => ((1e-7 : ℝ) : ℂ)) 0 0 = ((1e-7 : ℝ) : ℂ) := by
    rw [coefficients_dft]
    simp [dftCoeff]
  have hm : meshPoints 1 = [(0, 0)] := by decide
  rw [hm]
  simp only [List.map_cons, List.map_nil, List.sum_cons, List.sum_nil, this]
  rw [if_pos]
  · norm_num
  · rw [Complex.norm_real]; norm_num

/-- The hypotheses of `C29_exact_partial` are met by constant data on a 4 x 4 mesh. -/
example : ∀ n m : Int, 0 ≤ n ∧ n < (4 : Nat) → 0 ≤ m ∧ m < (4 : Nat) →
    dftCoeff 4 (-1) (fun _ _ => 3) n m = 0 ∨ 1e-6 ≤ ‖dftCoeff 4 (-1) (fun _ _ => 3) n m‖ := by
  intro n m hn hm
  have h : dftCoeff 4 (-1) (fun _ _ => 3) n m =
      3 * ((∑ i ∈ Finset.range 4, om 4 (i * -n)) * ∑ j ∈ Finset.range 4, om 4 (j * -m)) / (4 * 4) := by
    unfold dftCoeff
    rw [Finset.sum_mul_sum, Finset.mul_sum]
    push_cast
    congr 1
    refine Finset.sum_congr rfl fun i _ => ?_
    rw [Finset.mul_sum]
    refine Finset.sum_congr rfl fun j _ => ?_
    rw [← om_add, om]
    congr 2
    push_cast
    ring
  rw [h, sum_om 4 (by norm_num), sum_om 4 (by norm_num)]
  by_cases h1 : ((4 : Nat) : Int) ∣ -n <;> by_cases h2 : ((4 : Nat) : Int) ∣ -m <;>
    simp only [h1, h2, if_true, if_false]
  · right; norm_num
  · left; simp
  · left; simp
  · left; simp

end Verif.Fourier
