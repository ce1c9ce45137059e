import Verif.Fourier.Props

/-!
# Property C142: interpolation is exact for hoppings on shortest bonds

If the sampled function is a Fourier sum over lattice vectors on shortest bonds only, the models set up from the samples agree with that function at
all wave vectors, not only at those of the mesh.
-/

namespace Verif.Fourier

open Verif.Voronoi

/-- Lattice vectors that are equal up to translations of the supercell. -/
def Equivalent (n1 n2 n3 : Nat) (R R' : V3) : Prop :=
  (n1 : Int) ∣ R'.1 - R.1 ∧ (n2 : Int) ∣ R'.2.1 - R.2.1 ∧ (n3 : Int) ∣ R'.2.2 - R.2.2

/-- Lattice vectors within two supercells. -/
def InRange (sgn : Int) (n1 n2 n3 : Nat) (R : V3) : Prop :=
  (-(2 * n1 : Int) ≤ sgn * R.1 ∧ sgn * R.1 < 2 * n1) ∧ (-(2 * n2 : Int) ≤ sgn * R.2.1 ∧ sgn * R.2.1 < 2 * n2) ∧
    (-(2 * n3 : Int) ≤ sgn * R.2.2 ∧ sgn * R.2.2 < 2 * n3)

/-- The lattice vectors `S` with hoppings `t` are on shortest bonds between sites at `ti` and `tj` with respect to a supercell, and hoppings on
equivalent bonds of the same length are equal. -/
structure Short (sgn : Int) (n1 n2 n3 : Nat) (at' : Fin 3 → Fin 3 → ℝ) (ti tj : Fin 3 → ℝ) (S : Finset V3) (t : V3 → ℂ) : Prop where
  range : ∀ R ∈ S, InRange sgn n1 n2 n3 R
  shortest : ∀ R ∈ S, ∀ R', Equivalent n1 n2 n3 R R' → InRange sgn n1 n2 n3 R' →
    bondLength at' ti tj R < bondLength at' ti tj R' + 1e-7
  balanced : ∀ R ∈ S, ∀ R', Equivalent n1 n2 n3 R R' → InRange sgn n1 n2 n3 R' →
    bondLength at' ti tj R' < bondLength at' ti tj R + 1e-7 → R' ∈ S ∧ t R' = t R

/-- Fourier sum. -/
noncomputable def fourierSum (S : Finset V3) (t : V3 → ℂ) (k : Fin 3 → ℝ) : ℂ := ∑ R ∈ S, t R * phase R k

/-! ### Sums over the output of `wigner` -/

/-- Selected copies of a mesh point. -/
noncomputable def sel (sgn : Int) (n1 n2 n3 : Nat) (len : V3 → ℝ) (m : V3) : List V3 :=
  selected (1e-7) len (copies sgn ((n1 : Int), (n2 : Int), (n3 : Int)) 2 m)

theorem classOf_isMesh (sgn : Int) (n1 n2 n3 : Nat) (h1 : 0 < n1) (h2 : 0 < n2) (h3 : 0 < n3) (R : V3) :
    classOf sgn ((n1 : Int), (n2 : Int), (n3 : Int)) R ∈ mesh3 n1 n2 n3 :=
  (mem_mesh3 _ _ _ _).2 (meshIndex_isMesh sgn n1 n2 n3 h1 h2 h3 R)

theorem sel_nodup (sgn : Int) (hs : sgn = 1 ∨ sgn = -1) (n1 n2 n3 : Nat) (h1 : 0 < n1) (h2 : 0 < n2) (h3 : 0 < n3) (len : V3 → ℝ)
    (m : V3) : (sel sgn n1 n2 n3 len m).Nodup :=
  selected_nodup _ _ _ (nodup_copies sgn hs _ (by simpa using h1) (by simpa using h2) (by simpa using h3) _ _)

theorem sel_class (sgn : Int) (hs : sgn = 1 ∨ sgn = -1) (n1 n2 n3 : Nat) (len : V3 → ℝ) (m : V3) (hm : m ∈ mesh3 n1 n2 n3) (R : V3)
    (hR : R ∈ sel sgn n1 n2 n3 len m) : classOf sgn ((n1 : Int), (n2 : Int), (n3 : Int)) R = m :=
  classOf_copies sgn hs n1 n2 n3 2 m R hm (selected_subset _ _ _ _ hR)

theorem rank_sum {ι κ : Type} [DecidableEq ι] [DecidableEq κ] (sgn : Int) (hs : sgn = 1 ∨ sgn = -1) (n1 n2 n3 : Nat) (h1 : 0 < n1)
    (h2 : 0 < n2) (h3 : 0 < n3) (len : ι → κ → V3 → ℝ) (is : List ι) (js : List κ) (ms : List V3) (hms : ms.Sublist (mesh3 n1 n2 n3))
    (i : ι) (hi : i ∈ is) (j : κ) (hj : j ∈ js) (G : V3 → ℂ) :
    ((rankDict (1e-7) sgn ((n1 : Int), (n2 : Int), (n3 : Int)) 2 len is js ms).keys.map fun R =>
      G R / ((rankDict (1e-7) sgn ((n1 : Int), (n2 : Int), (n3 : Int)) 2 len is js ms).deg R i j : ℂ)).sum =
    (ms.map fun m => ((sel sgn n1 n2 n3 (len i j) m).map G).sum / ((sel sgn n1 n2 n3 (len i j) m).length : ℂ)).sum := by
  obtain ⟨k1, k2, k3, k4⟩ := rankDict_spec (1e-7 : ℝ) sgn hs n1 n2 n3 2 len is js ms (fun x hx => hms.subset hx)
  set nr : V3 := ((n1 : Int), (n2 : Int), (n3 : Int)) with hnr
  set d := rankDict (1e-7 : ℝ) sgn nr 2 len is js ms with hd
  have hms' : ms.Nodup := (nodup_mesh3 n1 n2 n3).sublist hms
  rw [← List.sum_toFinset _ k1, ← List.sum_toFinset _ hms']
  rw [← Finset.sum_fiberwise_of_maps_to (s := d.keys.toFinset) (t := ms.toFinset) (g := classOf sgn nr)
    (fun R hR => List.mem_toFinset.2 (k2 R (List.mem_toFinset.1 hR)))]
  refine Finset.sum_congr rfl fun m hm => ?_
  have hm' := List.mem_toFinset.1 hm
  have hcl := sel_class sgn hs n1 n2 n3 (len i j) m (hms.subset hm')
  have hnd := sel_nodup sgn hs n1 n2 n3 h1 h2 h3 (len i j) m
  rw [← List.sum_toFinset _ hnd, Finset.sum_div]
  symm
  have hsub : (sel sgn n1 n2 n3 (len i j) m).toFinset ⊆ {R ∈ d.keys.toFinset | classOf sgn nr R = m} := by
    intro R hR
    have hR' := List.mem_toFinset.1 hR
    exact Finset.mem_filter.2 ⟨List.mem_toFinset.2 (k3 m hm' i hi j hj R hR'), hcl R hR'⟩
  rw [← Finset.sum_subset hsub]
  · refine Finset.sum_congr rfl fun R hR => ?_
    have hR' := List.mem_toFinset.1 hR
    have hR2 : R ∈ selected (1e-7) (len i j) (copies sgn nr 2 m) := hR'
    rw [k4 m hm' i hi j hj R (hcl R hR'), if_pos hR2]
    rfl
  · intro R hR hRS
    have hc := (Finset.mem_filter.1 hR).2
    have hR2 : ¬ R ∈ selected (1e-7) (len i j) (copies sgn nr 2 m) := fun h => hRS (List.mem_toFinset.2 h)
    rw [k4 m hm' i hi j hj R hc, if_neg hR2]
    simp

/-- Weighted sum over all lattice vectors. -/
theorem wigner_sum (size : Nat) (hsize : 0 < size) {n n' : Nat} (sgn : Int) (hs : sgn = 1 ∨ sgn = -1) (n1 n2 n3 : Nat) (h1 : 0 < n1)
    (h2 : 0 < n2) (h3 : 0 < n3) (at' : Fin 3 → Fin 3 → ℝ) (tau : Fin n → Fin 3 → ℝ) (tau2 : Fin n' → Fin 3 → ℝ) (i : Fin n) (j : Fin n')
    (G : V3 → ℂ) :
    ((wigner size n1 n2 n3 at' tau tau2 (1e-7) sgn 2).map fun e => G e.1 / (e.2 i j : ℂ)).sum =
      ((mesh3 n1 n2 n3).map fun m => ((sel sgn n1 n2 n3 (bondLength at' (tau i) (tau2 j)) m).map G).sum /
        ((sel sgn n1 n2 n3 (bondLength at' (tau i) (tau2 j)) m).length : ℂ)).sum := by
  unfold wigner wignerWith
  rw [List.map_flatMap, sum_flatMap']
  have : ∀ rank : Nat, (((rankDict (1e-7) sgn ((n1 : Int), (n2 : Int), (n3 : Int)) 2 (fun i j => bondLength at' (tau i) (tau2 j))
        (List.finRange n) (List.finRange n') (Verif.MPI.dealWigner size rank (mesh3 n1 n2 n3))).keys.map fun R =>
        (R, (rankDict (1e-7) sgn ((n1 : Int), (n2 : Int), (n3 : Int)) 2 (fun i j => bondLength at' (tau i) (tau2 j))
        (List.finRange n) (List.finRange n') (Verif.MPI.dealWigner size rank (mesh3 n1 n2 n3))).deg R)).map
        fun e => G e.1 / (e.2 i j : ℂ)).sum = ((Verif.MPI.dealWigner size rank (mesh3 n1 n2 n3)).map fun m =>
          ((sel sgn n1 n2 n3 (bondLength at' (tau i) (tau2 j)) m).map G).sum /
        ((sel sgn n1 n2 n3 (bondLength at' (tau i) (tau2 j)) m).length : ℂ)).sum := by
    intro rank
    rw [List.map_map]
    exact rank_sum sgn hs n1 n2 n3 h1 h2 h3 (fun i j => bondLength at' (tau i) (tau2 j)) _ _ _ (dealFrom_sublist _ _ _ _) i
      (List.mem_finRange i) j (List.mem_finRange j) G
  simp only [this]
  have hsum := (Verif.MPI.C03_sum (fun m => ((sel sgn n1 n2 n3 (bondLength at' (tau i) (tau2 j)) m).map G).sum /
        ((sel sgn n1 n2 n3 (bondLength at' (tau i) (tau2 j)) m).length : ℂ)) size hsize (mesh3 n1 n2 n3)).2.1
  rw [← List.sum_toFinset _ List.nodup_range, List.toFinset_range]
  exact hsum

/-! ### Grouping by class -/

/-- Hoppings that are equal within a class, distributed evenly over the members of the class. -/
theorem class_sum {α μ : Type} [DecidableEq α] [DecidableEq μ] (c : α → μ) (S : Finset α) (se : μ → Finset α) (t : α → ℂ) (ms : Finset μ)
    (G : α → ℂ) (hc : ∀ R ∈ S, c R ∈ ms) (hin : ∀ R ∈ S, R ∈ se (c R)) (hall : ∀ R ∈ S, ∀ R' ∈ se (c R), R' ∈ S ∧ t R' = t R)
    (hcl : ∀ m ∈ ms, ∀ R ∈ se m, c R = m) :
    ∑ m ∈ ms, (∑ R ∈ S with c R = m, t R) * ((∑ R ∈ se m, G R) / ((se m).card : ℂ)) = ∑ R ∈ S, t R * G R := by
  rw [← Finset.sum_fiberwise_of_maps_to (s := S) (t := ms) (g := c) hc]
  refine Finset.sum_congr rfl fun m hm => ?_
  by_cases he : {R ∈ S | c R = m} = ∅
  · rw [he]; simp
  obtain ⟨R0, hR0⟩ := Finset.nonempty_iff_ne_empty.2 he
  obtain ⟨hS0, rfl⟩ := Finset.mem_filter.1 hR0
  have heq : {R ∈ S | c R = c R0} = se (c R0) := by
    ext R
    rw [Finset.mem_filter]
    constructor
    · rintro ⟨hR, h⟩
      rw [← h]; exact hin R hR
    · intro hR
      exact ⟨(hall R0 hS0 R hR).1, hcl _ hm R hR⟩
  rw [heq]
  have ht : ∀ R ∈ se (c R0), t R = t R0 := fun R hR => (hall R0 hS0 R hR).2
  rw [Finset.sum_congr rfl ht, Finset.sum_const, nsmul_eq_mul]
  have hcard : ((se (c R0)).card : ℂ) ≠ 0 := by
    have : 0 < (se (c R0)).card := Finset.card_pos.2 ⟨R0, hin R0 hS0⟩
    exact_mod_cast this.ne'
  have hr : ∑ R ∈ se (c R0), t R * G R = ∑ R ∈ se (c R0), t R0 * G R := Finset.sum_congr rfl fun R hR => by rw [ht R hR]
  rw [hr, ← Finset.mul_sum]
  field_simp

theorem mem_range_copies (sgn : Int) (hs : sgn = 1 ∨ sgn = -1) (n1 n2 n3 : Nat) (h1 : 0 < n1) (h2 : 0 < n2) (h3 : 0 < n3) (R R' : V3) :
    R' ∈ copies sgn ((n1 : Int), (n2 : Int), (n3 : Int)) 2 (classOf sgn ((n1 : Int), (n2 : Int), (n3 : Int)) R) ↔
      Equivalent n1 n2 n3 R R' ∧ InRange sgn n1 n2 n3 R' := by
  have hss : sgn * sgn = 1 := by rcases hs with rfl | rfl <;> rfl
  have key : ∀ (n : Nat) (x y : Int), 0 < n → ((∃ M : Int, (-2 ≤ M ∧ M < 2) ∧ y = sgn * (M * n + sgn * x % n)) ↔
      (n : Int) ∣ y - x ∧ (-(2 * n : Int) ≤ sgn * y ∧ sgn * y < 2 * n)) := by
    intro n x y hn
    have e := Int.emod_add_mul_ediv (sgn * x) n
    have l1 : 0 ≤ sgn * x % n := Int.emod_nonneg _ (by omega)
    have l2 : sgn * x % n < n := Int.emod_lt_of_pos _ (by omega)
    constructor
    · rintro ⟨M, ⟨hM1, hM2⟩, rfl⟩
      refine ⟨⟨sgn * (M - sgn * x / n), by linear_combination (sgn : Int) * e + x * hss⟩, ?_⟩
      rw [← mul_assoc, hss, one_mul]
      constructor <;> nlinarith
    · rintro ⟨⟨c, hc⟩, hr1, hr2⟩
      have hn' : (0 : Int) < n := by exact_mod_cast hn
      refine ⟨sgn * c + sgn * x / n, ⟨?_, ?_⟩, by linear_combination hc - x * hss - sgn * e - (n * c) * hss⟩
      · have : sgn * y = (sgn * c + sgn * x / n) * n + sgn * x % n := by linear_combination sgn * hc - e
        by_contra hlt
        push Not at hlt
        nlinarith
      · have : sgn * y = (sgn * c + sgn * x / n) * n + sgn * x % n := by linear_combination sgn * hc - e
        by_contra hlt
        push Not at hlt
        nlinarith
  rw [mem_copies]
  unfold Searched Equivalent InRange
  constructor
  · rintro ⟨a, b, c, ha, hb, hc, hR⟩
    have e1 := (key n1 R.1 R'.1 h1).1 ⟨a, by exact_mod_cast ha, by rw [hR]; rfl⟩
    have e2 := (key n2 R.2.1 R'.2.1 h2).1 ⟨b, by exact_mod_cast hb, by rw [hR]; rfl⟩
    have e3 := (key n3 R.2.2 R'.2.2 h3).1 ⟨c, by exact_mod_cast hc, by rw [hR]; rfl⟩
    exact ⟨⟨e1.1, e2.1, e3.1⟩, e1.2, e2.2, e3.2⟩
  · rintro ⟨⟨e1, e2, e3⟩, f1, f2, f3⟩
    obtain ⟨a, ha, g1⟩ := (key n1 R.1 R'.1 h1).2 ⟨e1, f1⟩
    obtain ⟨b, hb, g2⟩ := (key n2 R.2.1 R'.2.1 h2).2 ⟨e2, f2⟩
    obtain ⟨c, hc, g3⟩ := (key n3 R.2.2 R'.2.2 h3).2 ⟨e3, f3⟩
    exact ⟨a, b, c, by exact_mod_cast ha, by exact_mod_cast hb, by exact_mod_cast hc, by
      simp only [classOf, ← g1, ← g2, ← g3]⟩

/-- Selected copies of the mesh point of a lattice vector on a shortest bond. -/
theorem Short.sel {sgn : Int} {n1 n2 n3 : Nat} {at' : Fin 3 → Fin 3 → ℝ} {ti tj : Fin 3 → ℝ} {S : Finset V3} {t : V3 → ℂ}
    (h : Short sgn n1 n2 n3 at' ti tj S t) (hs : sgn = 1 ∨ sgn = -1) (h1 : 0 < n1) (h2 : 0 < n2) (h3 : 0 < n3) :
    (∀ R ∈ S, R ∈ sel sgn n1 n2 n3 (bondLength at' ti tj) (meshIndex sgn n1 n2 n3 R)) ∧
    ∀ R ∈ S, ∀ R' ∈ sel sgn n1 n2 n3 (bondLength at' ti tj) (meshIndex sgn n1 n2 n3 R), R' ∈ S ∧ t R' = t R := by
  have hself : ∀ R : V3, Equivalent n1 n2 n3 R R := fun R => ⟨by simp, by simp, by simp⟩
  have hmem : ∀ R ∈ S, R ∈ copies sgn ((n1 : Int), (n2 : Int), (n3 : Int)) 2 (meshIndex sgn n1 n2 n3 R) := fun R hR =>
    (mem_range_copies sgn hs n1 n2 n3 h1 h2 h3 R R).2 ⟨hself R, h.range R hR⟩
  constructor
  · intro R hR
    rw [Verif.Fourier.sel, mem_selected _ _ _ _ (by norm_num)]
    refine ⟨hmem R hR, fun R' hR' => ?_⟩
    obtain ⟨e1, e2⟩ := (mem_range_copies sgn hs n1 n2 n3 h1 h2 h3 R R').1 hR'
    exact h.shortest R hR R' e1 e2
  · intro R hR R' hR'
    rw [Verif.Fourier.sel, mem_selected _ _ _ _ (by norm_num)] at hR'
    obtain ⟨e1, e2⟩ := (mem_range_copies sgn hs n1 n2 n3 h1 h2 h3 R R').1 hR'.1
    exact h.balanced R hR R' e1 e2 (hR'.2 R (hmem R hR))

/-! ### Aliasing -/

theorem orth_alias (sgn : Int) (hs : sgn = 1 ∨ sgn = -1) (n1 n2 n3 : Nat) (h1 : 0 < n1) (h2 : 0 < n2) (h3 : 0 < n3) (R m : V3)
    (hm : IsMesh n1 n2 n3 m) :
    ((mesh3 n1 n2 n3).map fun k => om3 n1 n2 n3 R k * om3 n1 n2 n3 (-(sgn * m.1), -(sgn * m.2.1), -(sgn * m.2.2)) k).sum =
      if meshIndex sgn n1 n2 n3 R = m then (n1 : ℂ) * n2 * n3 else 0 := by
  have hneg : ∀ a k : V3, om3 n1 n2 n3 (-a.1, -a.2.1, -a.2.2) k = star (om3 n1 n2 n3 k a) := by
    intro a k
    rw [om3_comm n1 n2 n3 k a]
    simp only [om3, star_mul', om_star, neg_mul]
  have hμ := meshIndex_isMesh sgn n1 n2 n3 h1 h2 h3 R
  rcases hs with rfl | rfl
  · rw [← orth3 n1 n2 n3 _ m hμ hm]
    congr 1
    apply List.map_congr_left
    intro k _
    rw [om3_meshIndex 1 (Or.inl rfl) n1 n2 n3 h1 h2 h3 R k]
    simp only [one_mul]
    rw [hneg m k, om3_comm n1 n2 n3 _ k]
  · have : (meshIndex (-1) n1 n2 n3 R = m) = (m = meshIndex (-1) n1 n2 n3 R) := propext ⟨Eq.symm, Eq.symm⟩
    rw [if_congr (iff_of_eq this) rfl rfl, ← orth3 n1 n2 n3 m _ hm hμ]
    congr 1
    apply List.map_congr_left
    intro k _
    rw [om3_meshIndex (-1) (Or.inr rfl) n1 n2 n3 h1 h2 h3 R k]
    simp only [neg_mul, one_mul, neg_neg]
    rw [hneg _ k, om3_comm n1 n2 n3 _ k]
    ring

theorem sum_finset_list {β : Type} (S : Finset β) (l : List V3) (f : V3 → β → ℂ) :
    (l.map fun k => ∑ R ∈ S, f k R).sum = ∑ R ∈ S, (l.map fun k => f k R).sum := by
  induction l with
  | nil => simp
  | cons a l ih => simp [ih, Finset.sum_add_distrib]

/-- Transform of a sampled Fourier sum (phonons). -/
theorem ifftn_alias (n1 n2 n3 : Nat) (h1 : 0 < n1) (h2 : 0 < n2) (h3 : 0 < n3) (S : Finset V3) (t : V3 → ℂ) (m : V3)
    (hm : IsMesh n1 n2 n3 m) :
    ifftn n1 n2 n3 (fun q => fourierSum S t (meshK n1 n2 n3 q)) m = ∑ R ∈ S with meshIndex (-1) n1 n2 n3 R = m, t R := by
  have hN : ((n1 : ℂ) * n2 * n3) ≠ 0 := by
    have p1 : (n1 : ℂ) ≠ 0 := by exact_mod_cast h1.ne'
    have p2 : (n2 : ℂ) ≠ 0 := by exact_mod_cast h2.ne'
    have p3 : (n3 : ℂ) ≠ 0 := by exact_mod_cast h3.ne'
    exact mul_ne_zero (mul_ne_zero p1 p2) p3
  rw [ifftn_eq, div_eq_iff hN, Finset.sum_filter, Finset.sum_mul]
  simp only [fourierSum, Finset.sum_mul]
  rw [sum_finset_list]
  refine Finset.sum_congr rfl fun R _ => ?_
  have := orth_alias (-1) (Or.inr rfl) n1 n2 n3 h1 h2 h3 R m hm
  simp only [neg_mul, one_mul, neg_neg] at this
  rw [ite_mul, zero_mul, ← mul_ite_zero, ← this, ← List.sum_map_mul_left]
  congr 1
  apply List.map_congr_left
  intro k _
  rw [phase_meshK, om3_comm n1 n2 n3 k m]
  ring

/-- Transform of a sampled Fourier sum (electrons). -/
theorem star_ifftn_alias {β : Type} (n1 n2 n3 : Nat) (h1 : 0 < n1) (h2 : 0 < n2) (h3 : 0 < n3) (S : Finset β) (R : β → V3) (t : β → ℂ) (m : V3)
    (hm : IsMesh n1 n2 n3 m) :
    star (ifftn n1 n2 n3 (fun q => star (∑ p ∈ S, t p * phase (R p) (meshK n1 n2 n3 q))) m) =
      ∑ p ∈ S with meshIndex 1 n1 n2 n3 (R p) = m, t p := by
  have hN : ((n1 : ℂ) * n2 * n3) ≠ 0 := by
    have p1 : (n1 : ℂ) ≠ 0 := by exact_mod_cast h1.ne'
    have p2 : (n2 : ℂ) ≠ 0 := by exact_mod_cast h2.ne'
    have p3 : (n3 : ℂ) ≠ 0 := by exact_mod_cast h3.ne'
    exact mul_ne_zero (mul_ne_zero p1 p2) p3
  have hNs : star ((n1 : ℂ) * n2 * n3) = (n1 : ℂ) * n2 * n3 := by simp
  rw [ifftn_eq, star_div₀, hNs, div_eq_iff hN, Finset.sum_filter, Finset.sum_mul, list_star_sum, List.map_map]
  simp only [Function.comp_def, star_mul', star_star]
  simp only [Finset.sum_mul]
  rw [sum_finset_list]
  refine Finset.sum_congr rfl fun p _ => ?_
  have := orth_alias 1 (Or.inl rfl) n1 n2 n3 h1 h2 h3 (R p) m hm
  simp only [one_mul] at this
  rw [ite_mul, zero_mul, ← mul_ite_zero, ← this, ← List.sum_map_mul_left]
  congr 1
  apply List.map_congr_left
  intro k _
  have hst : star (om3 n1 n2 n3 k m) = om3 n1 n2 n3 (-m.1, -m.2.1, -m.2.2) k := by
    rw [om3_comm n1 n2 n3 k m]
    simp only [om3, star_mul', om_star, neg_mul]
  rw [phase_meshK, hst]
  ring

/-! ### Exactness -/

/-- Model from `short_range_model` for data that are sums over equivalent lattice vectors. -/
theorem shortRange_exact {n c : Nat} (size : Nat) (hsize : 0 < size) (n1 n2 n3 : Nat) (h1 : 0 < n1) (h2 : 0 < n2) (h3 : 0 < n3)
    (at' : Fin 3 → Fin 3 → ℝ) (tau : Fin n → Fin 3 → ℝ) (sgn : Int) (hs : sgn = 1 ∨ sgn = -1)
    (data : Fin n → Fin n → V3 → Fin c → Fin c → ℂ) (a b : Fin n × Fin c) (S : Finset V3) (t : V3 → ℂ) (F : ℂ)
    (hS : Short sgn n1 n2 n3 at' (tau a.1) (tau b.1) S t)
    (hd : ∀ m, IsMesh n1 n2 n3 m → data a.1 b.1 m a.2 b.2 = F * ∑ R ∈ S with meshIndex sgn n1 n2 n3 R = m, t R) (k : Fin 3 → ℝ) :
    ∃ l, shortRange size n1 n2 n3 at' tau sgn true data = some l ∧ bloch l k a b = F * fourierSum S t k := by
  refine ⟨_, Verif.MPI.C02_parMap size hsize _ _, ?_⟩
  unfold bloch
  rw [List.map_map]
  obtain ⟨s1, s2⟩ := hS.sel hs h1 h2 h3
  set len := bondLength at' (tau a.1) (tau b.1) with hlen
  set G : V3 → ℂ := fun R => data a.1 b.1 (meshIndex sgn n1 n2 n3 R) a.2 b.2 * phase R k with hG
  have e1 : ((wigner size n1 n2 n3 at' tau tau (1e-7) sgn 2).map
      ((fun e => e.2 a b * phase e.1 k) ∘ constBlock sgn n1 n2 n3 true data)) =
      (wigner size n1 n2 n3 at' tau tau (1e-7) sgn 2).map fun e => G e.1 / (e.2 a.1 b.1 : ℂ) := by
    apply List.map_congr_left
    intro e _
    simp only [Function.comp, constBlock, if_true, hG]
    by_cases he : e.2 a.1 b.1 = 0
    · simp [he]
    · rw [if_pos he]; ring
  rw [e1, wigner_sum size hsize sgn hs n1 n2 n3 h1 h2 h3 at' tau tau a.1 b.1 G, ← hlen]
  unfold fourierSum
  rw [← class_sum (meshIndex sgn n1 n2 n3) S (fun m => (sel sgn n1 n2 n3 len m).toFinset) t (mesh3 n1 n2 n3).toFinset
    (fun R => phase R k)
    (fun R _ => List.mem_toFinset.2 ((mem_mesh3 _ _ _ _).2 (meshIndex_isMesh sgn n1 n2 n3 h1 h2 h3 R)))
    (fun R hR => List.mem_toFinset.2 (s1 R hR)) (fun R hR R' hR' => s2 R hR R' (List.mem_toFinset.1 hR'))
    (fun m hm R hR => sel_class sgn hs n1 n2 n3 len m (List.mem_toFinset.1 hm) R (List.mem_toFinset.1 hR))]
  rw [← List.sum_toFinset _ (nodup_mesh3 n1 n2 n3), Finset.mul_sum]
  refine Finset.sum_congr rfl fun m hm => ?_
  have hm' := List.mem_toFinset.1 hm
  have hnd := sel_nodup sgn hs n1 n2 n3 h1 h2 h3 len m
  rw [← List.sum_toFinset _ hnd, List.toFinset_card_of_nodup hnd, ← mul_assoc, ← hd m ((mem_mesh3 _ _ _ _).1 hm'),
    ← mul_div_assoc, Finset.mul_sum]
  congr 1
  refine Finset.sum_congr rfl fun R hR => ?_
  have hc : meshIndex sgn n1 n2 n3 R = m := sel_class sgn hs n1 n2 n3 len m hm' R (List.mem_toFinset.1 hR)
  simp only [hG, hc]

/-- C142 (electrons). If every element of the sampled matrix is a Fourier sum over lattice vectors on shortest bonds, with equal coefficients on
equivalent bonds of the same length, the Hamiltonian of the model set up by `k2r` is that Fourier sum (in the units of the model) at all wave vectors,
for every number of processes, every mesh and every geometry. -/
theorem C142_k2r {n : Nat} (size : Nat) (hsize : 0 < size) (n1 n2 n3 : Nat) (h1 : 0 < n1) (h2 : 0 < n2) (h3 : 0 < n3)
    (at' : Fin 3 → Fin 3 → ℝ) (r : Fin n → Fin 3 → ℝ) (rydberg elRydberg : Bool) (Ry : ℝ) (S : Fin n → Fin n → Finset V3)
    (t : Fin n → Fin n → V3 → ℂ) (hS : ∀ a b, Short 1 n1 n2 n3 at' (r a) (r b) (S a b) (t a b)) :
    ∃ l, k2r size n1 n2 n3 at' r true rydberg elRydberg true Ry (fun k a b => fourierSum (S a b) (t a b) (meshK n1 n2 n3 k)) = some l ∧
      ∀ k a b, bloch l k a b = unitFactor rydberg elRydberg Ry * fourierSum (S a b) (t a b) k := by
  refine ⟨_, by rw [k2r, shortRange, Verif.MPI.C02_parMap size hsize, Option.map_some], ?_⟩
  intro k a b
  obtain ⟨l, hl, hb⟩ := shortRange_exact (c := 1) size hsize n1 n2 n3 h1 h2 h3 at' r 1 (Or.inl rfl)
    (hoppings n1 n2 n3 (fun k a b => fourierSum (S a b) (t a b) (meshK n1 n2 n3 k))) (a, 0) (b, 0) (S a b) (t a b) 1 (hS a b)
    (fun m hm => by rw [one_mul]; exact star_ifftn_alias n1 n2 n3 h1 h2 h3 (S a b) (fun R => R) (t a b) m hm) k
  rw [shortRange, Verif.MPI.C02_parMap size hsize] at hl
  injection hl with hl
  rw [if_pos rfl, hl]
  rw [one_mul] at hb
  rw [← hb]
  unfold bloch
  rw [List.map_map, ← List.sum_map_mul_left]
  congr 1
  apply List.map_congr_left
  intro e _
  cases rydberg <;> cases elRydberg <;> simp [unitFactor] <;> ring

/-- C142 (Coulomb interaction). -/
theorem C142_elel {n : Nat} (size : Nat) (hsize : 0 < size) (n1 n2 n3 : Nat) (h1 : 0 < n1) (h2 : 0 < n2) (h3 : 0 < n3)
    (at' : Fin 3 → Fin 3 → ℝ) (r : Fin n → Fin 3 → ℝ) (S : Fin n → Fin n → Finset V3)
    (t : Fin n → Fin n → V3 → ℂ) (hS : ∀ a b, Short 1 n1 n2 n3 at' (r a) (r b) (S a b) (t a b)) :
    ∃ l, elelQ2r size n1 n2 n3 at' r true (fun k a b => fourierSum (S a b) (t a b) (meshK n1 n2 n3 k)) = some l ∧
      ∀ k a b, bloch l k a b = fourierSum (S a b) (t a b) k := by
  obtain ⟨l, hl, hb⟩ := C142_k2r size hsize n1 n2 n3 h1 h2 h3 at' r false false 1 S t hS
  refine ⟨l, ?_, fun k a b => by rw [hb k a b]; exact one_mul _⟩
  rw [← hl]
  simp [elelQ2r, k2r]

/-- C142 (phonons). The same for `ph.q2r` and real force constants. -/
theorem C142_ph {n : Nat} (size : Nat) (hsize : 0 < size) (n1 n2 n3 : Nat) (h1 : 0 < n1) (h2 : 0 < n2) (h3 : 0 < n3)
    (at' : Fin 3 → Fin 3 → ℝ) (r : Fin n → Fin 3 → ℝ) (M : Fin n → ℝ) (hM : ∀ a, 0 < M a) (divideMass phDivideMass : Bool)
    (S : Fin n × Fin 3 → Fin n × Fin 3 → Finset V3) (t : Fin n × Fin 3 → Fin n × Fin 3 → V3 → ℝ)
    (hS : ∀ a b, Short (-1) n1 n2 n3 at' (r a.1) (r b.1) (S a b) (fun R => (t a b R : ℂ))) :
    ∃ l, phQ2r size n1 n2 n3 at' r M divideMass phDivideMass true
        (fun q a b => fourierSum (S a b) (fun R => (t a b R : ℂ)) (meshK n1 n2 n3 q)) = some l ∧
      ∀ q a b, bloch l q a b = massFactor divideMass phDivideMass (M a.1) (M b.1) * fourierSum (S a b) (fun R => (t a b R : ℂ)) q := by
  refine ⟨_, by rw [phQ2r, shortRange, Verif.MPI.C02_parMap size hsize, Option.map_some], ?_⟩
  intro q a b
  have ha : (Real.sqrt (M a.1) : ℂ) ≠ 0 := by
    exact_mod_cast (Real.sqrt_pos.2 (hM a.1)).ne'
  have hb' : (Real.sqrt (M b.1) : ℂ) ≠ 0 := by
    exact_mod_cast (Real.sqrt_pos.2 (hM b.1)).ne'
  obtain ⟨l, hl, hb⟩ := shortRange_exact (c := 3) size hsize n1 n2 n3 h1 h2 h3 at' r (-1) (Or.inr rfl)
    (phid n1 n2 n3 divideMass M (fun q a b => fourierSum (S a b) (fun R => (t a b R : ℂ)) (meshK n1 n2 n3 q))) a b (S a b)
    (fun R => (t a b R : ℂ)) (if divideMass then (Real.sqrt (M a.1) : ℂ) * (Real.sqrt (M b.1) : ℂ) else 1) (hS a b)
    (fun m hm => by
      have hal := ifftn_alias n1 n2 n3 h1 h2 h3 (S a b) (fun R => (t a b R : ℂ)) m hm
      have hre : ((ifftn n1 n2 n3 (fun q => fourierSum (S a b) (fun R => (t a b R : ℂ)) (meshK n1 n2 n3 q)) m).re : ℂ) =
          ∑ R ∈ S a b with meshIndex (-1) n1 n2 n3 R = m, (t a b R : ℂ) := by
        rw [hal, ← Complex.ofReal_sum, Complex.ofReal_re]
      have hph : phid n1 n2 n3 divideMass M (fun q a b => fourierSum (S a b) (fun R => (t a b R : ℂ)) (meshK n1 n2 n3 q))
          a.1 b.1 m a.2 b.2 = if divideMass then
            ((ifftn n1 n2 n3 (fun q => fourierSum (S a b) (fun R => (t a b R : ℂ)) (meshK n1 n2 n3 q)) m).re : ℂ) *
              (Real.sqrt (M a.1) : ℂ) * (Real.sqrt (M b.1) : ℂ) else
            ((ifftn n1 n2 n3 (fun q => fourierSum (S a b) (fun R => (t a b R : ℂ)) (meshK n1 n2 n3 q)) m).re : ℂ) := rfl
      rw [hph, hre]
      cases divideMass
      · simp
      · simp only [if_true]; ring) q
  rw [shortRange, Verif.MPI.C02_parMap size hsize] at hl
  injection hl with hl
  rw [hl]
  have hsc : bloch (l.map fun e => (e.1, if phDivideMass then byMass M e.2 else e.2)) q a b =
      (if phDivideMass then 1 / ((Real.sqrt (M a.1) : ℂ) * (Real.sqrt (M b.1) : ℂ)) else 1) * bloch l q a b := by
    unfold bloch
    rw [List.map_map, ← List.sum_map_mul_left]
    congr 1
    apply List.map_congr_left
    intro e _
    cases phDivideMass
    · simp
    · simp only [Function.comp, byMass, if_true]
      field_simp
  rw [hsc, hb]
  cases divideMass <;> cases phDivideMass <;> simp [massFactor]
  field_simp

/-- Pairs of lattice vectors, of the displaced atom and of the initial orbital, on shortest bonds from the final orbital, with equal coefficients for
equivalent bonds of the same lengths. -/
structure ShortPairs (nq1 nq2 nq3 nk1 nk2 nk3 : Nat) (at' : Fin 3 → Fin 3 → ℝ) (ta tx tb : Fin 3 → ℝ) (S : Finset (V3 × V3))
    (t : V3 × V3 → ℂ) : Prop where
  range : ∀ p ∈ S, InRange 1 nq1 nq2 nq3 p.1 ∧ InRange 1 nk1 nk2 nk3 p.2
  shortest : ∀ p ∈ S,
    (∀ R', Equivalent nq1 nq2 nq3 p.1 R' → InRange 1 nq1 nq2 nq3 R' → bondLength at' ta tx p.1 < bondLength at' ta tx R' + 1e-7) ∧
    ∀ R', Equivalent nk1 nk2 nk3 p.2 R' → InRange 1 nk1 nk2 nk3 R' → bondLength at' ta tb p.2 < bondLength at' ta tb R' + 1e-7
  balanced : ∀ p ∈ S, ∀ Rg Rk, Equivalent nq1 nq2 nq3 p.1 Rg → InRange 1 nq1 nq2 nq3 Rg →
    bondLength at' ta tx Rg < bondLength at' ta tx p.1 + 1e-7 → Equivalent nk1 nk2 nk3 p.2 Rk → InRange 1 nk1 nk2 nk3 Rk →
    bondLength at' ta tb Rk < bondLength at' ta tb p.2 + 1e-7 → (Rg, Rk) ∈ S ∧ t (Rg, Rk) = t p

/-- Fourier sum over pairs of lattice vectors. -/
noncomputable def fourierSum2 (S : Finset (V3 × V3)) (t : V3 × V3 → ℂ) (q k : Fin 3 → ℝ) : ℂ := ∑ p ∈ S, t p * phase p.1 q * phase p.2 k

theorem couplingDFT_alias (nq1 nq2 nq3 nk1 nk2 nk3 : Nat) (hq1 : 0 < nq1) (hq2 : 0 < nq2) (hq3 : 0 < nq3) (hk1 : 0 < nk1) (hk2 : 0 < nk2)
    (hk3 : 0 < nk3) (S : Finset (V3 × V3)) (t : V3 × V3 → ℂ) (mq mk : V3) (hq : IsMesh nq1 nq2 nq3 mq) (hk : IsMesh nk1 nk2 nk3 mk) :
    couplingDFT nq1 nq2 nq3 nk1 nk2 nk3 (fun q k => fourierSum2 S t (meshK nq1 nq2 nq3 q) (meshK nk1 nk2 nk3 k)) mq mk =
      ∑ p ∈ S with (meshIndex 1 nq1 nq2 nq3 p.1, meshIndex 1 nk1 nk2 nk3 p.2) = (mq, mk), t p := by
  unfold couplingDFT
  have inner : ∀ q, ifftn nk1 nk2 nk3 (fun k => star (fourierSum2 S t (meshK nq1 nq2 nq3 q) (meshK nk1 nk2 nk3 k))) mk =
      star (∑ p ∈ S with meshIndex 1 nk1 nk2 nk3 p.2 = mk, t p * phase p.1 (meshK nq1 nq2 nq3 q)) := by
    intro q
    have := star_ifftn_alias nk1 nk2 nk3 hk1 hk2 hk3 S (fun p => p.2) (fun p => t p * phase p.1 (meshK nq1 nq2 nq3 q)) mk hk
    rw [← this, star_star]
    rfl
  simp only [inner]
  rw [star_ifftn_alias nq1 nq2 nq3 hq1 hq2 hq3 _ (fun p => p.1) t mq hq, Finset.filter_filter]
  congr 1
  apply Finset.filter_congr
  intro p _
  exact ⟨fun h => Prod.ext h.2 h.1, fun h => ⟨congrArg Prod.snd h, congrArg Prod.fst h⟩⟩

/-- C142 (electron-phonon coupling). The same for `elph.q2r`. -/
theorem C142_elph {n p : Nat} (size : Nat) (hsize : 0 < size) (nq1 nq2 nq3 nk1 nk2 nk3 : Nat) (hq1 : 0 < nq1) (hq2 : 0 < nq2)
    (hq3 : 0 < nq3) (hk1 : 0 < nk1) (hk2 : 0 < nk2) (hk3 : 0 < nk3)
    (at' : Fin 3 → Fin 3 → ℝ) (r : Fin n → Fin 3 → ℝ) (τ : Fin p → Fin 3 → ℝ) (M : Fin p → ℝ)
    (divideMass elphDivideMass : Bool) (S : Fin p × Fin 3 → Fin n → Fin n → Finset (V3 × V3))
    (t : Fin p × Fin 3 → Fin n → Fin n → V3 × V3 → ℂ)
    (hS : ∀ x a b, ShortPairs nq1 nq2 nq3 nk1 nk2 nk3 at' (r a) (τ x.1) (r b) (S x a b) (t x a b))
    (q k : Fin 3 → ℝ) (x : Fin p × Fin 3) (a b : Fin n) :
    let m := elphQ2r size nq1 nq2 nq3 nk1 nk2 nk3 at' r τ M divideMass elphDivideMass
      (fun q x k a b => fourierSum2 (S x a b) (t x a b) (meshK nq1 nq2 nq3 q) (meshK nk1 nk2 nk3 k))
    coupling m.1 m.2.1 m.2.2 q k x a b =
      (match divideMass, elphDivideMass with
        | true, false => (Real.sqrt (M x.1) : ℂ)
        | false, true => 1 / (Real.sqrt (M x.1) : ℂ)
        | _, _ => 1) * fourierSum2 (S x a b) (t x a b) q k := by
  intro m
  set C := couplingDFT nq1 nq2 nq3 nk1 nk2 nk3
    (fun q k => fourierSum2 (S x a b) (t x a b) (meshK nq1 nq2 nq3 q) (meshK nk1 nk2 nk3 k)) with hC
  set F : ℂ := (match divideMass, elphDivideMass with
        | true, false => (Real.sqrt (M x.1) : ℂ)
        | false, true => 1 / (Real.sqrt (M x.1) : ℂ)
        | _, _ => 1) with hF
  set Wg := wigner size nq1 nq2 nq3 at' r τ (1e-7) 1 2 with hWg
  set Wk := wigner size nk1 nk2 nk3 at' r r (1e-7) 1 2 with hWk
  have hdata : ∀ eg ek, m.2.2 eg x ek a b =
      F * (C (meshIndex 1 nq1 nq2 nq3 eg.1) (meshIndex 1 nk1 nk2 nk3 ek.1) /
        (ek.2 a b : ℂ) / (eg.2 a x.1 : ℂ)) := by
    intro eg ek
    have hdd : ∀ (dk dg : Nat) (z : ℂ), divideDegeneracy dk dg z = z / (dk : ℂ) / (dg : ℂ) := by
      intro dk dg z
      unfold divideDegeneracy
      by_cases hd : dk = 0 <;> by_cases hd' : dg = 0 <;> simp [hd, hd']
    simp only [m, elphQ2r, hdd, ← hC, hF]
    cases divideMass <;> cases elphDivideMass <;> simp <;> ring
  set lg := bondLength at' (r a) (τ x.1) with hlg
  set lk := bondLength at' (r a) (r b) with hlk
  set sg := sel 1 nq1 nq2 nq3 lg with hsg
  set sk := sel 1 nk1 nk2 nk3 lk with hsk
  have gnd : ∀ m, (sg m).Nodup := fun m => sel_nodup 1 (Or.inl rfl) nq1 nq2 nq3 hq1 hq2 hq3 lg m
  have knd : ∀ m, (sk m).Nodup := fun m => sel_nodup 1 (Or.inl rfl) nk1 nk2 nk3 hk1 hk2 hk3 lk m
  have gcl : ∀ m ∈ mesh3 nq1 nq2 nq3, ∀ R ∈ sg m, meshIndex 1 nq1 nq2 nq3 R = m := fun m hm R hR =>
    sel_class 1 (Or.inl rfl) nq1 nq2 nq3 lg m hm R hR
  have kcl : ∀ m ∈ mesh3 nk1 nk2 nk3, ∀ R ∈ sk m, meshIndex 1 nk1 nk2 nk3 R = m := fun m hm R hR =>
    sel_class 1 (Or.inl rfl) nk1 nk2 nk3 lk m hm R hR
  -- sums over classes
  have inner : ∀ ek : V3 × (Fin n → Fin n → Nat), (m.1.map fun eg => m.2.2 eg x ek a b * phase eg.1 q).sum =
      ((mesh3 nq1 nq2 nq3).map fun mq => F * C mq (meshIndex 1 nk1 nk2 nk3 ek.1) *
        (((sg mq).map fun R => phase R q).sum / ((sg mq).length : ℂ))).sum / (ek.2 a b : ℂ) := by
    intro ek
    have hw := wigner_sum size hsize 1 (Or.inl rfl) nq1 nq2 nq3 hq1 hq2 hq3 at' r τ a x.1
      (fun R => F * C (meshIndex 1 nq1 nq2 nq3 R) (meshIndex 1 nk1 nk2 nk3 ek.1) * phase R q / (ek.2 a b : ℂ))
    rw [← hWg, ← hlg, ← hsg] at hw
    have e1 : (m.1.map fun eg => m.2.2 eg x ek a b * phase eg.1 q) =
        Wg.map fun eg => F * C (meshIndex 1 nq1 nq2 nq3 eg.1) (meshIndex 1 nk1 nk2 nk3 ek.1) * phase eg.1 q / (ek.2 a b : ℂ) /
          (eg.2 a x.1 : ℂ) := by
      apply List.map_congr_left
      intro eg _
      rw [hdata]
      ring
    rw [e1, hw, div_eq_mul_inv, ← List.sum_map_mul_right]
    congr 1
    apply List.map_congr_left
    intro mq hmq
    have e2 : ((sg mq).map fun R => F * C (meshIndex 1 nq1 nq2 nq3 R) (meshIndex 1 nk1 nk2 nk3 ek.1) * phase R q / (ek.2 a b : ℂ)) =
        (sg mq).map fun R => F * C mq (meshIndex 1 nk1 nk2 nk3 ek.1) / (ek.2 a b : ℂ) * phase R q := by
      apply List.map_congr_left
      intro R hR
      rw [gcl mq hmq R hR]
      ring
    rw [e2, List.sum_map_mul_left]
    ring
  have outer : coupling m.1 m.2.1 m.2.2 q k x a b =
      ((mesh3 nk1 nk2 nk3).map fun mk => ((mesh3 nq1 nq2 nq3).map fun mq => F * C mq mk *
        (((sg mq).map fun R => phase R q).sum / ((sg mq).length : ℂ))).sum *
          (((sk mk).map fun R => phase R k).sum / ((sk mk).length : ℂ))).sum := by
    unfold coupling
    simp only [inner]
    have hw := wigner_sum size hsize 1 (Or.inl rfl) nk1 nk2 nk3 hk1 hk2 hk3 at' r r a b
      (fun R' => ((mesh3 nq1 nq2 nq3).map fun mq => F * C mq (meshIndex 1 nk1 nk2 nk3 R') *
        (((sg mq).map fun R => phase R q).sum / ((sg mq).length : ℂ))).sum * phase R' k)
    rw [← hWk, ← hlk, ← hsk] at hw
    have e1 : (m.2.1.map fun ek => ((mesh3 nq1 nq2 nq3).map fun mq => F * C mq (meshIndex 1 nk1 nk2 nk3 ek.1) *
        (((sg mq).map fun R => phase R q).sum / ((sg mq).length : ℂ))).sum / (ek.2 a b : ℂ) * phase ek.1 k) =
        Wk.map fun ek => ((mesh3 nq1 nq2 nq3).map fun mq => F * C mq (meshIndex 1 nk1 nk2 nk3 ek.1) *
        (((sg mq).map fun R => phase R q).sum / ((sg mq).length : ℂ))).sum * phase ek.1 k / (ek.2 a b : ℂ) := by
      apply List.map_congr_left
      intro ek _
      ring
    rw [e1, hw]
    congr 1
    apply List.map_congr_left
    intro mk hmk
    have e2 : ((sk mk).map fun R' => ((mesh3 nq1 nq2 nq3).map fun mq => F * C mq (meshIndex 1 nk1 nk2 nk3 R') *
        (((sg mq).map fun R => phase R q).sum / ((sg mq).length : ℂ))).sum * phase R' k) =
        (sk mk).map fun R' => ((mesh3 nq1 nq2 nq3).map fun mq => F * C mq mk *
        (((sg mq).map fun R => phase R q).sum / ((sg mq).length : ℂ))).sum * phase R' k := by
      apply List.map_congr_left
      intro R' hR'
      rw [kcl mk hmk R' hR']
    rw [e2, List.sum_map_mul_left]
    ring
  rw [outer]
  -- pairs of lattice vectors
  have hself : ∀ (n1 n2 n3 : Nat) (R : V3), Equivalent n1 n2 n3 R R := fun n1 n2 n3 R => ⟨by simp, by simp, by simp⟩
  have hin : ∀ P ∈ S x a b, P ∈ (sg (meshIndex 1 nq1 nq2 nq3 P.1)).toFinset ×ˢ (sk (meshIndex 1 nk1 nk2 nk3 P.2)).toFinset := by
    intro P hP
    obtain ⟨f1, f2⟩ := (hS x a b).range P hP
    obtain ⟨f3, f4⟩ := (hS x a b).shortest P hP
    rw [Finset.mem_product, List.mem_toFinset, List.mem_toFinset]
    constructor
    · rw [hsg, Verif.Fourier.sel, mem_selected _ _ _ _ (by norm_num)]
      refine ⟨(mem_range_copies 1 (Or.inl rfl) nq1 nq2 nq3 hq1 hq2 hq3 P.1 P.1).2 ⟨hself _ _ _ _, f1⟩, fun R' hR' => ?_⟩
      obtain ⟨e1, e2⟩ := (mem_range_copies 1 (Or.inl rfl) nq1 nq2 nq3 hq1 hq2 hq3 P.1 R').1 hR'
      exact f3 R' e1 e2
    · rw [hsk, Verif.Fourier.sel, mem_selected _ _ _ _ (by norm_num)]
      refine ⟨(mem_range_copies 1 (Or.inl rfl) nk1 nk2 nk3 hk1 hk2 hk3 P.2 P.2).2 ⟨hself _ _ _ _, f2⟩, fun R' hR' => ?_⟩
      obtain ⟨e1, e2⟩ := (mem_range_copies 1 (Or.inl rfl) nk1 nk2 nk3 hk1 hk2 hk3 P.2 R').1 hR'
      exact f4 R' e1 e2
  have hall : ∀ P ∈ S x a b, ∀ P' ∈ (sg (meshIndex 1 nq1 nq2 nq3 P.1)).toFinset ×ˢ (sk (meshIndex 1 nk1 nk2 nk3 P.2)).toFinset,
      P' ∈ S x a b ∧ t x a b P' = t x a b P := by
    intro P hP P' hP'
    obtain ⟨f1, f2⟩ := (hS x a b).range P hP
    rw [Finset.mem_product, List.mem_toFinset, List.mem_toFinset] at hP'
    obtain ⟨g1, g2⟩ := hP'
    rw [hsg, Verif.Fourier.sel, mem_selected _ _ _ _ (by norm_num)] at g1
    rw [hsk, Verif.Fourier.sel, mem_selected _ _ _ _ (by norm_num)] at g2
    obtain ⟨e1, e2⟩ := (mem_range_copies 1 (Or.inl rfl) nq1 nq2 nq3 hq1 hq2 hq3 P.1 P'.1).1 g1.1
    obtain ⟨e3, e4⟩ := (mem_range_copies 1 (Or.inl rfl) nk1 nk2 nk3 hk1 hk2 hk3 P.2 P'.2).1 g2.1
    exact (hS x a b).balanced P hP P'.1 P'.2 e1 e2
      (g1.2 P.1 ((mem_range_copies 1 (Or.inl rfl) nq1 nq2 nq3 hq1 hq2 hq3 P.1 P.1).2 ⟨hself _ _ _ _, f1⟩)) e3 e4
      (g2.2 P.2 ((mem_range_copies 1 (Or.inl rfl) nk1 nk2 nk3 hk1 hk2 hk3 P.2 P.2).2 ⟨hself _ _ _ _, f2⟩))
  have key := class_sum (fun P : V3 × V3 => (meshIndex 1 nq1 nq2 nq3 P.1, meshIndex 1 nk1 nk2 nk3 P.2)) (S x a b)
    (fun μ => (sg μ.1).toFinset ×ˢ (sk μ.2).toFinset) (t x a b) ((mesh3 nq1 nq2 nq3).toFinset ×ˢ (mesh3 nk1 nk2 nk3).toFinset)
    (fun P => phase P.1 q * phase P.2 k)
    (fun P _ => Finset.mem_product.2
      ⟨List.mem_toFinset.2 ((mem_mesh3 _ _ _ _).2 (meshIndex_isMesh 1 nq1 nq2 nq3 hq1 hq2 hq3 P.1)),
        List.mem_toFinset.2 ((mem_mesh3 _ _ _ _).2 (meshIndex_isMesh 1 nk1 nk2 nk3 hk1 hk2 hk3 P.2))⟩)
    hin hall
    (fun μ hμ P hP => by
      rw [Finset.mem_product, List.mem_toFinset, List.mem_toFinset] at hμ hP
      exact Prod.ext (gcl μ.1 hμ.1 P.1 hP.1) (kcl μ.2 hμ.2 P.2 hP.2))
  have hfs : fourierSum2 (S x a b) (t x a b) q k = ∑ P ∈ S x a b, t x a b P * (phase P.1 q * phase P.2 k) :=
    Finset.sum_congr rfl fun P _ => by ring
  rw [hfs, ← key, Finset.sum_product_right, Finset.mul_sum, ← List.sum_toFinset _ (nodup_mesh3 nk1 nk2 nk3)]
  refine Finset.sum_congr rfl fun mk hmk => ?_
  rw [← List.sum_toFinset _ (nodup_mesh3 nq1 nq2 nq3), Finset.sum_mul, Finset.mul_sum]
  refine Finset.sum_congr rfl fun mq hmq => ?_
  have hCv := couplingDFT_alias nq1 nq2 nq3 nk1 nk2 nk3 hq1 hq2 hq3 hk1 hk2 hk3 (S x a b) (t x a b) mq mk
    ((mem_mesh3 _ _ _ _).1 (List.mem_toFinset.1 hmq)) ((mem_mesh3 _ _ _ _).1 (List.mem_toFinset.1 hmk))
  rw [← hCv, ← hC, Finset.sum_product, Finset.card_product, List.toFinset_card_of_nodup (gnd mq), List.toFinset_card_of_nodup (knd mk)]
  rw [← List.sum_toFinset _ (gnd mq), ← List.sum_toFinset _ (knd mk)]
  have hpr : ∑ u ∈ (sg mq).toFinset, ∑ v ∈ (sk mk).toFinset, phase u q * phase v k =
      (∑ u ∈ (sg mq).toFinset, phase u q) * ∑ v ∈ (sk mk).toFinset, phase v k := by
    rw [Finset.sum_mul]
    exact Finset.sum_congr rfl fun u _ => by rw [Finset.mul_sum]
  rw [hpr]
  push_cast
  rw [mul_div_mul_comm]
  ring

end Verif.Fourier
