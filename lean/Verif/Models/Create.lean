import Verif.Fourier.Check
import Verif.Models.Chain
import Verif.Models.Graphene

/-!
# Models created by `elphmod/models/chain.py` and `elphmod/models/graphene.py` (C142)

The functions `create` sample the model functions on meshes and set up localized models via `k2r` and `q2r`. The parameters (hopping, force constants,
masses, …) are arbitrary; the lattice constants are between 1 and 100 bohr. The sampling (`dispersion.sample`, `elph.sample`, see C02 and C79) is the
evaluation of the model functions at the points of the mesh. `standardize` is considered separately. Output files are not modelled.
-/

namespace Verif.Models

open Verif.Voronoi Verif.Fourier

theorem phase_cis (R : V3) (k : Fin 3 → ℝ) : phase R k = cis ((R.1 : ℝ) * k 0 + (R.2.1 : ℝ) * k 1 + (R.2.2 : ℝ) * k 2) := by
  unfold phase cis
  push_cast
  rfl

theorem cos_cis (x : ℝ) : ((Real.cos x : ℝ) : ℂ) = (cis x + cis (-x)) / 2 := by
  unfold cis
  rw [Complex.ofReal_cos, Complex.cos]
  push_cast
  rw [mul_comm Complex.I, mul_comm Complex.I, neg_mul]

theorem sin_cis (x : ℝ) : Complex.I * ((Real.sin x : ℝ) : ℂ) = (cis x - cis (-x)) / 2 := by
  unfold cis
  rw [Complex.ofReal_sin, Complex.sin]
  push_cast
  rw [mul_comm Complex.I ((x : ℝ) : ℂ), mul_comm Complex.I (-((x : ℝ) : ℂ)), neg_mul]
  linear_combination ((Complex.exp (-(x * Complex.I)) - Complex.exp (x * Complex.I)) / 2) * Complex.I_mul_I

theorem fourierSum_list (l : List V3) (hl : l.Nodup) (t : V3 → ℂ) (k : Fin 3 → ℝ) :
    fourierSum l.toFinset t k = (l.map fun R => t R * phase R k).sum := by
  unfold fourierSum
  rw [List.sum_toFinset _ hl]

theorem fourierSum2_list (l : List (V3 × V3)) (hl : l.Nodup) (t : V3 × V3 → ℂ) (q k : Fin 3 → ℝ) :
    fourierSum2 l.toFinset t q k = (l.map fun p => t p * phase p.1 q * phase p.2 k).sum := by
  unfold fourierSum2
  rw [List.sum_toFinset _ hl]

/-! ### Models from sampled functions -/

/-- Electrons sampled from a function of the wave vector. -/
theorem k2r_exact {n : Nat} (size : Nat) (hsize : 0 < size) (n1 n2 n3 : Nat) (h1 : 0 < n1) (h2 : 0 < n2) (h3 : 0 < n3)
    (at' : Fin 3 → Fin 3 → ℝ) (r : Fin n → Fin 3 → ℝ) (rydberg elRydberg : Bool) (Ry : ℝ) (S : Fin n → Fin n → Finset V3)
    (t : Fin n → Fin n → V3 → ℂ) (hS : ∀ a b, Short 1 n1 n2 n3 at' (r a) (r b) (S a b) (t a b)) (H : (Fin 3 → ℝ) → Fin n → Fin n → ℂ)
    (hH : ∀ k a b, H k a b = fourierSum (S a b) (t a b) k) :
    ∃ l, k2r size n1 n2 n3 at' r true rydberg elRydberg true Ry (fun k a b => H (meshK n1 n2 n3 k) a b) = some l ∧
      ∀ k a b, bloch l k a b = unitFactor rydberg elRydberg Ry * H k a b := by
  obtain ⟨l, hl, hb⟩ := C142_k2r size hsize n1 n2 n3 h1 h2 h3 at' r rydberg elRydberg Ry S t hS
  refine ⟨l, ?_, fun k a b => by rw [hb, hH]⟩
  rw [← hl]
  simp only [hH]

theorem elel_exact {n : Nat} (size : Nat) (hsize : 0 < size) (n1 n2 n3 : Nat) (h1 : 0 < n1) (h2 : 0 < n2) (h3 : 0 < n3)
    (at' : Fin 3 → Fin 3 → ℝ) (r : Fin n → Fin 3 → ℝ) (S : Fin n → Fin n → Finset V3)
    (t : Fin n → Fin n → V3 → ℂ) (hS : ∀ a b, Short 1 n1 n2 n3 at' (r a) (r b) (S a b) (t a b)) (W : (Fin 3 → ℝ) → Fin n → Fin n → ℂ)
    (hW : ∀ k a b, W k a b = fourierSum (S a b) (t a b) k) :
    ∃ l, elelQ2r size n1 n2 n3 at' r true (fun k a b => W (meshK n1 n2 n3 k) a b) = some l ∧ ∀ k a b, bloch l k a b = W k a b := by
  obtain ⟨l, hl, hb⟩ := C142_elel size hsize n1 n2 n3 h1 h2 h3 at' r S t hS
  refine ⟨l, ?_, fun k a b => by rw [hb, hW]⟩
  rw [← hl]
  simp only [hW]

theorem ph_exact {n : Nat} (size : Nat) (hsize : 0 < size) (n1 n2 n3 : Nat) (h1 : 0 < n1) (h2 : 0 < n2) (h3 : 0 < n3)
    (at' : Fin 3 → Fin 3 → ℝ) (r : Fin n → Fin 3 → ℝ) (M : Fin n → ℝ) (hM : ∀ a, 0 < M a) (divideMass phDivideMass : Bool)
    (S : Fin n × Fin 3 → Fin n × Fin 3 → Finset V3) (t : Fin n × Fin 3 → Fin n × Fin 3 → V3 → ℝ)
    (hS : ∀ a b, Short (-1) n1 n2 n3 at' (r a.1) (r b.1) (S a b) (fun R => (t a b R : ℂ)))
    (D : (Fin 3 → ℝ) → Fin n × Fin 3 → Fin n × Fin 3 → ℂ) (hD : ∀ k a b, D k a b = fourierSum (S a b) (fun R => (t a b R : ℂ)) k) :
    ∃ l, phQ2r size n1 n2 n3 at' r M divideMass phDivideMass true (fun q a b => D (meshK n1 n2 n3 q) a b) = some l ∧
      ∀ q a b, bloch l q a b = massFactor divideMass phDivideMass (M a.1) (M b.1) * D q a b := by
  obtain ⟨l, hl, hb⟩ := C142_ph size hsize n1 n2 n3 h1 h2 h3 at' r M hM divideMass phDivideMass S t hS
  refine ⟨l, ?_, fun k a b => by rw [hb, hD]⟩
  rw [← hl]
  simp only [hD]

/-- Factor between the normalisation of sampled couplings (divided by the square root of the mass) and that of the model. -/
noncomputable def couplingFactor (elphDivideMass : Bool) (M : ℝ) : ℂ := if elphDivideMass then 1 else (Real.sqrt M : ℂ)

theorem elph_exact {n p : Nat} (size : Nat) (hsize : 0 < size) (nq1 nq2 nq3 nk1 nk2 nk3 : Nat) (hq1 : 0 < nq1) (hq2 : 0 < nq2)
    (hq3 : 0 < nq3) (hk1 : 0 < nk1) (hk2 : 0 < nk2) (hk3 : 0 < nk3)
    (at' : Fin 3 → Fin 3 → ℝ) (r : Fin n → Fin 3 → ℝ) (τ : Fin p → Fin 3 → ℝ) (M : Fin p → ℝ)
    (elphDivideMass : Bool) (S : Fin p × Fin 3 → Fin n → Fin n → Finset (V3 × V3))
    (t : Fin p × Fin 3 → Fin n → Fin n → V3 × V3 → ℂ)
    (hS : ∀ x a b, ShortPairs nq1 nq2 nq3 nk1 nk2 nk3 at' (r a) (τ x.1) (r b) (S x a b) (t x a b))
    (g : (Fin 3 → ℝ) → Fin p × Fin 3 → (Fin 3 → ℝ) → Fin n → Fin n → ℂ)
    (hg : ∀ q x k a b, g q x k a b = fourierSum2 (S x a b) (t x a b) q k)
    (q k : Fin 3 → ℝ) (x : Fin p × Fin 3) (a b : Fin n) :
    let m := elphQ2r size nq1 nq2 nq3 nk1 nk2 nk3 at' r τ M true elphDivideMass
      (fun q x k a b => g (meshK nq1 nq2 nq3 q) x (meshK nk1 nk2 nk3 k) a b)
    coupling m.1 m.2.1 m.2.2 q k x a b = couplingFactor elphDivideMass (M x.1) * g q x k a b := by
  have h := C142_elph size hsize nq1 nq2 nq3 nk1 nk2 nk3 hq1 hq2 hq3 hk1 hk2 hk3 at' r τ M true elphDivideMass S t hS q k x a b
  simp only [hg] at h ⊢
  rw [h]
  cases elphDivideMass <;> rfl

/-! ### Chain -/

namespace Chain

/-- `elphmod/models/chain.py` 84 and 88-89: tight-binding model. -/
noncomputable def createEl (size : Nat) (a c t Ry : ℝ) (rydberg : Bool) : Option (List (V3 × (Fin 1 → Fin 1 → ℂ))) :=
  k2r size 3 1 1 (ortho a c) (fun _ _ => 0) true true rydberg true Ry fun k α β => hamiltonian t (meshK 3 1 1 k 0) α β

/-- `elphmod/models/chain.py` 85 and 92-94: mass-spring model. -/
noncomputable def createPh (size : Nat) (a c w0 M : ℝ) (divideMass : Bool) :
    Option (List (V3 × (Fin 1 × Fin 3 → Fin 1 × Fin 3 → ℂ))) :=
  phQ2r size 2 1 1 (ortho a c) (fun _ _ => 0) (fun _ => M) true divideMass true fun q x y => dynamicalMatrix w0 (meshK 2 1 1 q 0) x.2 y.2

/-- `elphmod/models/chain.py` 86 and 97-98: coupling. -/
noncomputable def createElph (size : Nat) (a c g0 M : ℝ) (divideMass : Bool) :=
  elphQ2r size 3 1 1 3 1 1 (ortho a c) (fun _ : Fin 1 => fun _ => 0) (fun _ : Fin 1 => fun _ => 0) (fun _ => M) true divideMass fun q x k α β =>
    coupling g0 (meshK 3 1 1 q 0) (meshK 3 1 1 k 0) x.2 α β

/-- C142: the created chain model has the Hamiltonian, dynamical matrix and coupling of the model functions at all wave vectors. -/
theorem C142_chain (size : Nat) (hsize : 0 < size) (a c t w0 g0 Ry M : ℝ) (ha : 1 ≤ a) (ha' : a ≤ 100) (hc : 1 ≤ c) (hc' : c ≤ 100)
    (hM : 0 < M) (rydberg divideMass : Bool) :
    (∃ l, createEl size a c t Ry rydberg = some l ∧
      ∀ k α β, bloch l k α β = unitFactor true rydberg Ry * hamiltonian t (k 0) α β) ∧
    (∃ l, createPh size a c w0 M divideMass = some l ∧
      ∀ q x y, bloch l q x y = massFactor true divideMass M M * dynamicalMatrix w0 (q 0) x.2 y.2) ∧
    ∀ q k x α β, Verif.Fourier.coupling (createElph size a c g0 M divideMass).1 (createElph size a c g0 M divideMass).2.1
        (createElph size a c g0 M divideMass).2.2 q k x α β =
      couplingFactor divideMass M * coupling g0 (q 0) (k 0) x.2 α β := by
  have hA : 1 / 100 ≤ a ^ 2 := by nlinarith
  have hA' : a ^ 2 ≤ 10000 := by nlinarith
  have hC : 1 / 100 ≤ c ^ 2 := by nlinarith
  have hC' : c ^ 2 ≤ 10000 := by nlinarith
  refine ⟨?_, ?_, ?_⟩
  · refine k2r_exact size hsize 3 1 1 (by norm_num) (by norm_num) (by norm_num) (ortho a c) (fun _ _ => 0) true rydberg Ry
      (fun _ _ => [((1 : Int), (0 : Int), (0 : Int)), (-1, 0, 0)].toFinset) (fun _ _ _ => ((-t : ℝ) : ℂ)) (fun α β => ?_)
      (fun k α β => hamiltonian t (k 0) α β) (fun k α β => ?_)
    · exact short_of_check 1 (Or.inl rfl) 3 1 1 (fun R => R.1 ^ 2) (fun R => R.2.1 ^ 2 + R.2.2 ^ 2) (a ^ 2) (c ^ 2) hA hA' hC hC' _ _ _
        (ortho_length a c _) _ (fun _ => 0) (fun _ => ((-t : ℝ) : ℂ)) (by decide +kernel)
    · rw [fourierSum_list _ (by decide)]
      simp only [List.map_cons, List.map_nil, List.sum_cons, List.sum_nil, phase_cis, hamiltonian]
      have := cos_cis (k 0)
      push_cast at this ⊢
      rw [this]
      simp
      ring
  · refine ph_exact size hsize 2 1 1 (by norm_num) (by norm_num) (by norm_num) (ortho a c) (fun _ _ => 0) (fun _ => M) (fun _ => hM) true
      divideMass (fun _ _ => [((0 : Int), (0 : Int), (0 : Int)), (1, 0, 0), (-1, 0, 0)].toFinset)
      (fun x y R => (fun n : Nat => if x.2 = y.2 then (if n = 0 then w0 ^ 2 else -w0 ^ 2 / 2) else 0) (if R = (0, 0, 0) then 0 else 1))
      (fun x y => ?_) (fun k x y => dynamicalMatrix w0 (k 0) x.2 y.2) (fun k x y => ?_)
    · exact short_of_check (-1) (Or.inr rfl) 2 1 1 (fun R => R.1 ^ 2) (fun R => R.2.1 ^ 2 + R.2.2 ^ 2) (a ^ 2) (c ^ 2) hA hA' hC hC' _ _ _
        (ortho_length a c _) _ (fun R => if R = (0, 0, 0) then 0 else 1)
        (fun n => ((if x.2 = y.2 then (if n = 0 then w0 ^ 2 else -w0 ^ 2 / 2) else 0 : ℝ) : ℂ)) (by decide +kernel)
    · rw [fourierSum_list _ (by decide)]
      simp only [List.map_cons, List.map_nil, List.sum_cons, List.sum_nil, phase_cis, dynamicalMatrix]
      have := cos_cis (k 0)
      by_cases hxy : x.2 = y.2
      · simp only [hxy, if_true]
        push_cast at this ⊢
        rw [this]
        simp
        ring
      · simp [hxy]
  · intro q k x α β
    refine elph_exact size hsize 3 1 1 3 1 1 (by norm_num) (by norm_num) (by norm_num) (by norm_num) (by norm_num) (by norm_num) (ortho a c)
      (fun _ : Fin 1 => fun _ => 0) (fun _ : Fin 1 => fun _ => 0) (fun _ => M) divideMass
      (fun x _ _ => if x.2 = 0 then [(((1 : Int), (0 : Int), (0 : Int)), ((1 : Int), (0 : Int), (0 : Int))), ((-1, 0, 0), (-1, 0, 0)),
        ((0, 0, 0), (1, 0, 0)), ((0, 0, 0), (-1, 0, 0))].toFinset else ∅)
      (fun _ _ _ p => if p = ((1, 0, 0), (1, 0, 0)) ∨ p = ((0, 0, 0), (-1, 0, 0)) then (g0 : ℂ) / 2 else -(g0 : ℂ) / 2)
      (fun x α β => ?_) (fun q x k α β => coupling g0 (q 0) (k 0) x.2 α β) (fun q x k α β => ?_) q k x α β
    · by_cases hx : x.2 = 0
      · rw [if_pos hx]
        exact shortPairs_of_check 3 1 1 3 1 1 (fun R => R.1 ^ 2) (fun R => R.2.1 ^ 2 + R.2.2 ^ 2) (fun R => R.1 ^ 2)
          (fun R => R.2.1 ^ 2 + R.2.2 ^ 2) (a ^ 2) (c ^ 2) hA hA' hC hC' _ _ _ _ (ortho_length a c _) (ortho_length a c _) _ _
          (by decide +kernel)
      · rw [if_neg hx]
        exact shortPairs_empty _ _ _ _ _ _ _ _ _ _ _
    · by_cases hx : x.2 = 0
      · rw [if_pos hx, fourierSum2_list _ (by decide)]
        simp only [List.map_cons, List.map_nil, List.sum_cons, List.sum_nil, phase_cis, coupling, hx, if_true]
        have e1 := sin_cis (k 0 + q 0)
        have e2 := sin_cis (k 0)
        rw [show Complex.I * (g0 : ℂ) * ((Real.sin (k 0 + q 0) - Real.sin (k 0) : ℝ) : ℂ) =
          g0 * (Complex.I * ((Real.sin (k 0 + q 0) : ℝ) : ℂ) - Complex.I * ((Real.sin (k 0) : ℝ) : ℂ)) by push_cast; ring, e1, e2]
        rw [neg_add, cis_add, cis_add]
        simp
        ring
      · rw [if_neg hx]
        simp [coupling, hx, fourierSum2]

/-- At the zone boundary, which is not on the mesh, with three processes. -/
example : ∃ l, createEl 3 5 20 0.5 13.6 true = some l ∧ bloch l ![Real.pi, 0, 0] 0 0 = 1 := by
  obtain ⟨l, hl, hb⟩ := (C142_chain 3 (by norm_num) 5 20 0.5 1 1 13.6 1 (by norm_num) (by norm_num) (by norm_num) (by norm_num) (by norm_num)
    true true).1
  refine ⟨l, hl, ?_⟩
  rw [hb]
  norm_num [hamiltonian, unitFactor]

end Chain

/-! ### Graphene -/

namespace Graphene

/-- `elphmod/models/graphene.py` 34-35: atomic positions. -/
noncomputable def position (a c : ℝ) (i : Fin 2) (x : Fin 3) : ℝ :=
  (![2, 1] i * hex a c 0 x + ![1, 2] i * hex a c 1 x + 0 * hex a c 2 x) / 3

/-- `elphmod/models/graphene.py` 151 and 156-157: tight-binding model. -/
noncomputable def createEl (size : Nat) (a c t Ry : ℝ) (rydberg : Bool) : Option (List (V3 × (Fin 2 → Fin 2 → ℂ))) :=
  k2r size 2 2 1 (hex a c) (position a c) true true rydberg true Ry fun k α β => hamiltonian t (meshK 2 2 1 k 0) (meshK 2 2 1 k 1) α β

/-- `elphmod/models/graphene.py` 152 and 160-162: mass-spring model. -/
noncomputable def createPh (size : Nat) (a c : ℝ) (C : Fin 3 → ℝ) (M : ℝ) (divideMass : Bool) :
    Option (List (V3 × (Fin 2 × Fin 3 → Fin 2 × Fin 3 → ℂ))) :=
  phQ2r size 2 2 1 (hex a c) (position a c) (fun _ => M) true divideMass true fun q x y =>
    dynamicalMatrix C M (meshK 2 2 1 q 0) (meshK 2 2 1 q 1) x y

/-- `elphmod/models/graphene.py` 153 and 165-166: coupling. -/
noncomputable def createElph (size : Nat) (a c beta t M : ℝ) (divideMass : Bool) :=
  elphQ2r size 2 2 1 2 2 1 (hex a c) (position a c) (position a c) (fun _ => M) true divideMass fun q x k α β =>
    coupling (bond (hex a c)) beta t M (meshK 2 2 1 q 0) (meshK 2 2 1 q 1) (meshK 2 2 1 k 0) (meshK 2 2 1 k 1) x α β

/-- `elphmod/models/graphene.py` 154 and 169-170: Coulomb interaction. -/
noncomputable def createElel (size : Nat) (a c : ℝ) (U : Fin 4 → ℝ) (Ry : ℝ) : Option (List (V3 × (Fin 2 → Fin 2 → ℂ))) :=
  elelQ2r size 2 2 1 (hex a c) (position a c) true fun q α β => coulomb U (meshK 2 2 1 q 0) (meshK 2 2 1 q 1) α β * (Ry : ℂ)

/-- Difference of positions in thirds of lattice vectors. -/
def diff (i j : Fin 2) : Int × Int := if i = j then (0, 0) else if i = 0 then (-1, 1) else (1, -1)

theorem graphene_length (a c : ℝ) (i j : Fin 2) (R : V3) :
    Verif.Voronoi.bondLength (hex a c) (position a c i) (position a c j) R =
      Real.sqrt (a ^ 2 / 9 * (hexP (diff i j).1 (diff i j).2 R : ℝ) + c ^ 2 / 100 * (hexW 0 R : ℝ)) := by
  apply hex_length
  intro x
  unfold position
  fin_cases i <;> fin_cases j <;> simp [diff] <;> ring

/-- Lattice vectors of nearest neighbors. -/
def near (i j : Fin 2) : List V3 :=
  if i = j then [] else if i = 0 then [(1, 0, 0), (0, 0, 0), (0, -1, 0)] else [(-1, 0, 0), (0, 0, 0), (0, 1, 0)]

variable (a c : ℝ)

theorem hexA (ha : 1 ≤ a) : 1 / 100 ≤ a ^ 2 / 9 := by nlinarith
theorem hexA' (ha : 1 ≤ a) (ha' : a ≤ 100) : a ^ 2 / 9 ≤ 10000 := by nlinarith
theorem hexC (hc : 1 ≤ c) : 1 / 100 ≤ c ^ 2 / 100 := by nlinarith
theorem hexC' (hc : 1 ≤ c) (hc' : c ≤ 100) : c ^ 2 / 100 ≤ 10000 := by nlinarith

/-- C142: the created tight-binding model of graphene has the Hamiltonian of the model function at all wave vectors. -/
theorem C142_graphene_el (size : Nat) (hsize : 0 < size) (t Ry : ℝ) (ha : 1 ≤ a) (ha' : a ≤ 100) (hc : 1 ≤ c) (hc' : c ≤ 100)
    (rydberg : Bool) : ∃ l, createEl size a c t Ry rydberg = some l ∧
      ∀ k α β, bloch l k α β = unitFactor true rydberg Ry * hamiltonian t (k 0) (k 1) α β := by
  refine k2r_exact size hsize 2 2 1 (by norm_num) (by norm_num) (by norm_num) (hex a c) (position a c) true rydberg Ry
    (fun α β => (near α β).toFinset) (fun _ _ _ => (t : ℂ)) (fun α β => ?_) (fun k α β => hamiltonian t (k 0) (k 1) α β) (fun k α β => ?_)
  · refine short_of_check 1 (Or.inl rfl) 2 2 1 (hexP (diff α β).1 (diff α β).2) (hexW 0) (a ^ 2 / 9) (c ^ 2 / 100) (hexA a ha) (hexA' a ha ha')
      (hexC c hc) (hexC' c hc hc') _ _ _ (graphene_length a c α β) _ (fun _ => 0) (fun _ => (t : ℂ)) ?_
    revert α β
    decide +kernel
  · rw [fourierSum_list _ (by revert α β; decide)]
    fin_cases α <;> fin_cases β <;> simp [near, hamiltonian, phase_cis] <;> ring

/-- C142: the created Coulomb interaction of graphene is that of the model function at all wave vectors. -/
theorem C142_graphene_elel (size : Nat) (hsize : 0 < size) (U : Fin 4 → ℝ) (Ry : ℝ) (ha : 1 ≤ a) (ha' : a ≤ 100) (hc : 1 ≤ c)
    (hc' : c ≤ 100) : ∃ l, createElel size a c U Ry = some l ∧ ∀ q α β, bloch l q α β = coulomb U (q 0) (q 1) α β * (Ry : ℂ) := by
  refine elel_exact size hsize 2 2 1 (by norm_num) (by norm_num) (by norm_num) (hex a c) (position a c)
    (fun α β => (if α = β then [((0 : Int), (0 : Int), (0 : Int)), (1, 0, 0), (-1, 0, 0), (1, 1, 0), (-1, -1, 0), (0, 1, 0), (0, -1, 0)]
      else near α β ++ if α = 0 then [(1, 1, 0), (-1, -1, 0), (1, -1, 0)] else [(-1, -1, 0), (1, 1, 0), (-1, 1, 0)]).toFinset)
    (fun α β R => (fun n : Nat => ((if α = β then if n = 0 then U 0 else U 2 else if n = 0 then U 1 else U 3 : ℝ) : ℂ) * (Ry : ℂ))
      (if α = β then if R = (0, 0, 0) then 0 else 1 else if R ∈ near α β then 0 else 1)) (fun α β => ?_)
    (fun q α β => coulomb U (q 0) (q 1) α β * (Ry : ℂ)) (fun k α β => ?_)
  · refine short_of_check 1 (Or.inl rfl) 2 2 1 (hexP (diff α β).1 (diff α β).2) (hexW 0) (a ^ 2 / 9) (c ^ 2 / 100) (hexA a ha) (hexA' a ha ha')
      (hexC c hc) (hexC' c hc hc') _ _ _ (graphene_length a c α β) _
      (fun R => if α = β then if R = (0, 0, 0) then 0 else 1 else if R ∈ near α β then 0 else 1)
      (fun n => ((if α = β then if n = 0 then U 0 else U 2 else if n = 0 then U 1 else U 3 : ℝ) : ℂ) * (Ry : ℂ)) ?_
    revert α β
    decide +kernel
  · rw [fourierSum_list _ (by revert α β; decide)]
    have c1 := cos_cis (k 0)
    have c2 := cos_cis (k 1)
    have c3 := cos_cis (k 0 + k 1)
    push_cast at c1 c2 c3
    fin_cases α <;> fin_cases β <;> simp [near, coulomb, phase_cis, c1, c2, c3, sub_eq_add_neg, Complex.conj_ofNat] <;> ring_nf

/-- Lattice vectors of the displaced atom and of the initial orbital relative to the final orbital. -/
def pairs (i α β : Fin 2) : List (V3 × V3) := (near α β).map fun R => if i = α then ((0, 0, 0), R) else (R, R)

theorem pairs_nodup : ∀ i α β, (pairs i α β).Nodup := by decide

theorem pairs_check : ∀ i α β, (pairs i α β).all (fun P =>
    check 1 2 2 1 (hexP (diff α i).1 (diff α i).2) (hexW 0) [P.1] (fun _ => 0) &&
      check 1 2 2 1 (hexP (diff α β).1 (diff α β).2) (hexW 0) [P.2] (fun _ => 0)) = true := by
  decide +kernel

/-- Lattice vectors of springs. -/
def springs (i j : Fin 2) : List V3 :=
  if i = j then [(0, 0, 0), (1, 0, 0), (-1, 0, 0), (1, 1, 0), (-1, -1, 0), (0, 1, 0), (0, -1, 0)] else near i j

/-- Directions of springs. -/
def label (R : V3) : Nat := if R = (0, 0, 0) then 0 else if R.2.1 = 0 then 1 else if R.1 = 0 then 2 else 3

theorem springs_nodup : ∀ i j, (springs i j).Nodup := by decide

theorem springs_check : ∀ i j, check (-1) 2 2 1 (hexP (diff i j).1 (diff i j).2) (hexW 0) (springs i j) label = true := by
  decide +kernel

/-- C142: the created electron-phonon coupling of graphene is that of the model function at all wave vectors. -/
theorem C142_graphene_elph (size : Nat) (hsize : 0 < size) (beta t M : ℝ) (divideMass : Bool) (ha : 1 ≤ a) (ha' : a ≤ 100) (hc : 1 ≤ c)
    (hc' : c ≤ 100) (q k : Fin 3 → ℝ) (x : Fin 2 × Fin 3) (α β : Fin 2) :
    Verif.Fourier.coupling (createElph size a c beta t M divideMass).1 (createElph size a c beta t M divideMass).2.1
        (createElph size a c beta t M divideMass).2.2 q k x α β =
      couplingFactor divideMass M * coupling (bond (hex a c)) beta t M (q 0) (q 1) (k 0) (k 1) x α β := by
  refine elph_exact size hsize 2 2 1 2 2 1 (by norm_num) (by norm_num) (by norm_num) (by norm_num) (by norm_num) (by norm_num) (hex a c)
    (position a c) (position a c) (fun _ => M) divideMass
    (fun x α β => (pairs x.1 α β).toFinset)
    (fun x _ _ p => ((beta * t / (bondLength (bond (hex a c) 0) ^ 2 * Real.sqrt M) : ℝ) : ℂ) * ((if x.1 = 0 then 1 else -1) *
      ((bond (hex a c) (if p.2.1 ≠ 0 then 1 else if p.2.2.1 ≠ 0 then 2 else 0) x.2 : ℝ) : ℂ)))
    (fun x α β => ?_) (fun q x k α β => coupling (bond (hex a c)) beta t M (q 0) (q 1) (k 0) (k 1) x α β) (fun q x k α β => ?_) q k x α β
  · refine shortPairs_of_check 2 2 1 2 2 1 (hexP (diff α x.1).1 (diff α x.1).2) (hexW 0) (hexP (diff α β).1 (diff α β).2) (hexW 0)
      (a ^ 2 / 9) (c ^ 2 / 100) (hexA a ha) (hexA' a ha ha') (hexC c hc) (hexC' c hc hc') _ _ _ _ (graphene_length a c α x.1)
      (graphene_length a c α β) _ _ ?_
    exact pairs_check x.1 α β
  · obtain ⟨x, y⟩ := x
    rw [fourierSum2_list _ (pairs_nodup x α β)]
    have e1 : -(k 0 + q 0) = -k 0 + -q 0 := by ring
    have e2 : -(k 1 + q 1) = -k 1 + -q 1 := by ring
    fin_cases x <;> fin_cases α <;> fin_cases β <;> simp [pairs, near, coupling, coupling0, phase_cis, cis_add] <;> ring

/-! The lattice vectors of the spring constants between different sublattices are those of the inverse bonds. -/

theorem cis_int_pi (m : Int) (x : ℝ) (hx : x = 2 * Real.pi * m / (2 : Nat)) : cis (-x) = cis x := by
  have h : cis x * cis x = 1 := by
    rw [← cis_add, hx]
    unfold cis
    rw [Complex.exp_eq_one_iff]
    exact ⟨m, by push_cast; ring⟩
  have h' : cis x * cis (-x) = 1 := by
    rw [← cis_add, add_neg_cancel, cis_zero]
  have h0 : cis x ≠ 0 := fun h0 => by simp [h0] at h
  exact mul_left_cancel₀ h0 (h'.trans h.symm)

theorem dynamicalMatrix_mesh (C : Fin 3 → ℝ) (M : ℝ) (q : V3) (x y : Fin 2 × Fin 3) :
    dynamicalMatrix C M (-meshK 2 2 1 q 0) (-meshK 2 2 1 q 1) x y = dynamicalMatrix C M (meshK 2 2 1 q 0) (meshK 2 2 1 q 1) x y := by
  have e1 := cis_int_pi q.1 (meshK 2 2 1 q 0) rfl
  have e2 := cis_int_pi q.2.1 (meshK 2 2 1 q 1) rfl
  unfold dynamicalMatrix blockK blockL
  simp only [neg_neg, ← neg_add, map_add, map_mul, map_sub, cis_conj, Complex.conj_ofReal, cis_add, neg_add, e1, e2]

/-- Force constants of graphene. -/
noncomputable def force (C : Fin 3 → ℝ) (x y : Fin 2 × Fin 3) (n : Nat) : ℝ :=
  if x.1 = y.1 then
    if n = 0 then -(springK C 0 x.2 y.2 + springK C 1 x.2 y.2 + springK C 2 x.2 y.2
      + 2 * (springL C 0 x.2 y.2 + springL C 1 x.2 y.2 + springL C 2 x.2 y.2))
    else springL C (if n = 1 then 0 else if n = 2 then 1 else 2) x.2 y.2
  else springK C (if n = 0 then 1 else if n = 1 then 0 else 2) x.2 y.2

/-- C142: the created mass-spring model of graphene has the dynamical matrix of the model function at the opposite wave vector. -/
theorem C142_graphene_ph_partial (size : Nat) (hsize : 0 < size) (C : Fin 3 → ℝ) (M : ℝ) (hM : 0 < M) (divideMass : Bool) (ha : 1 ≤ a) (ha' : a ≤ 100)
    (hc : 1 ≤ c) (hc' : c ≤ 100) : ∃ l, createPh size a c C M divideMass = some l ∧
      ∀ q x y, bloch l q x y = massFactor true divideMass M M * dynamicalMatrix C M (-q 0) (-q 1) x y := by
  have h := ph_exact size hsize 2 2 1 (by norm_num) (by norm_num) (by norm_num) (hex a c) (position a c) (fun _ => M) (fun _ => hM) true
    divideMass (fun x y => (springs x.1 y.1).toFinset) (fun x y R => force C x y (label R) / M)
    (fun x y => ?_) (fun q x y => dynamicalMatrix C M (-q 0) (-q 1) x y) (fun q x y => ?_)
  · obtain ⟨l, hl, hb⟩ := h
    refine ⟨l, ?_, hb⟩
    rw [← hl]
    unfold createPh
    simp only [dynamicalMatrix_mesh]
  · refine short_of_check (-1) (Or.inr rfl) 2 2 1 (hexP (diff x.1 y.1).1 (diff x.1 y.1).2) (hexW 0) (a ^ 2 / 9) (c ^ 2 / 100) (hexA a ha)
      (hexA' a ha ha') (hexC c hc) (hexC' c hc hc') _ _ _ (graphene_length a c x.1 y.1) _
      label (fun n => ((force C x y n / M : ℝ) : ℂ)) (springs_check x.1 y.1)
  · obtain ⟨x, x'⟩ := x
    obtain ⟨y, y'⟩ := y
    rw [fourierSum_list _ (springs_nodup x y)]
    fin_cases x <;> fin_cases y <;>
      simp [springs, label, near, dynamicalMatrix, blockK, blockL, force, phase_cis, springK_symm C _ y' x', springL_symm C _ y' x', ← sub_eq_add_neg,
        Complex.conj_ofNat] <;> ring_nf

theorem springK_zz (C : Fin 3 → ℝ) (n : Fin 3) : springK C n 2 2 = C 2 := by
  unfold springK
  rw [rotate_apply]
  simp [Matrix.diagonal, Fin.sum_univ_three]

/-- C142: the created mass-spring model of graphene does not have the dynamical matrix of the model function. -/
theorem C142_graphene_ph_violated (size : Nat) (hsize : 0 < size) (C : Fin 3 → ℝ) (hC : C 2 ≠ 0) (M : ℝ) (hM : 0 < M) (divideMass : Bool) (ha : 1 ≤ a)
    (ha' : a ≤ 100) (hc : 1 ≤ c) (hc' : c ≤ 100) : ∃ l, createPh size a c C M divideMass = some l ∧
      ∃ q x y, bloch l q x y ≠ massFactor true divideMass M M * dynamicalMatrix C M (q 0) (q 1) x y := by
  obtain ⟨l, hl, hb⟩ := C142_graphene_ph_partial a c size hsize C M hM divideMass ha ha' hc hc'
  refine ⟨l, hl, ![Real.pi / 2, 0, 0], (1, 2), (0, 2), fun h => ?_⟩
  rw [hb] at h
  have hm : massFactor true divideMass M M ≠ 0 := by
    unfold massFactor
    cases divideMass <;> simp [hM.ne', Real.sqrt_ne_zero'.2 hM]
  have h := mul_left_cancel₀ hm h
  have hM' : (M : ℂ) ≠ 0 := by exact_mod_cast hM.ne'
  have hC' : (C 2 : ℂ) ≠ 0 := by exact_mod_cast hC
  have e : cis (Real.pi / 2) = Complex.I := by
    unfold cis
    rw [mul_comm]
    have := Complex.exp_pi_div_two_mul_I
    push_cast at this ⊢
    exact this
  have e' : cis (-(Real.pi / 2)) = -Complex.I := by rw [← cis_conj, e, Complex.conj_I]
  simp [dynamicalMatrix, blockK, springK_zz, e, e', hM'] at h
  have := congrArg Complex.im (mul_left_cancel₀ hC' (by linear_combination h : (C 2 : ℂ) * -Complex.I = C 2 * Complex.I))
  norm_num at this

/-- At the corner of the Brillouin zone, which is not on the mesh. -/
example : ∃ l, createEl 2 4.65 30 1 13.6 true = some l ∧ bloch l ![2 * Real.pi / 3, 2 * Real.pi / 3, 0] 0 1 = 0 := by
  obtain ⟨l, hl, hb⟩ := C142_graphene_el 4.65 30 2 (by norm_num) 1 13.6 (by norm_num) (by norm_num) (by norm_num) (by norm_num) true
  refine ⟨l, hl, ?_⟩
  rw [hb]
  have h := cos_cis (2 * Real.pi / 3)
  rw [show 2 * Real.pi / 3 = Real.pi - Real.pi / 3 by ring, Real.cos_pi_sub, Real.cos_pi_div_three] at h
  simp only [hamiltonian, Matrix.of_apply, Matrix.cons_val', Matrix.cons_val_zero, Matrix.cons_val_one]
  rw [show 2 * Real.pi / 3 = Real.pi - Real.pi / 3 by ring]
  push_cast at h ⊢
  linear_combination (unitFactor true true 13.6) * (-2) * h

example : ∃ l, createElel 2 4.65 30 ![1, 0.5, 0.4, 0.3] 13.6 = some l ∧ bloch l ![0.1, 0.2, 0] 1 1 =
    coulomb ![1, 0.5, 0.4, 0.3] 0.1 0.2 1 1 * ((13.6 : ℝ) : ℂ) := by
  obtain ⟨l, hl, hb⟩ := C142_graphene_elel 4.65 30 2 (by norm_num) ![1, 0.5, 0.4, 0.3] 13.6 (by norm_num) (by norm_num) (by norm_num) (by norm_num)
  exact ⟨l, hl, hb _ _ _⟩

example : ∃ l, createPh 2 4.65 30 ![-0.3, -0.2, -0.1] 12 true = some l ∧ ∃ q x y, bloch l q x y ≠ massFactor true true 12 12 *
    dynamicalMatrix ![-0.3, -0.2, -0.1] 12 (q 0) (q 1) x y :=
  C142_graphene_ph_violated 4.65 30 2 (by norm_num) _ (by simp; norm_num) 12 (by norm_num) true (by norm_num) (by norm_num) (by norm_num) (by norm_num)

end Graphene

end Verif.Models
