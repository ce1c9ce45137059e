import Verif.Fourier.Model
import Verif.Voronoi.Props
import Verif.MPI.Props
import Mathlib.Algebra.Field.GeomSum
import Mathlib.Tactic.FieldSimp
import Mathlib.Tactic.LinearCombination

/-! Roots of unity on meshes. -/

namespace Verif.Fourier

open Verif.Voronoi

/-- `exp(2 pi i x / n)`. -/
noncomputable def om (n : Nat) (x : Int) : ℂ :=
  Complex.exp (2 * Real.pi * Complex.I * ((x : ℂ) / (n : ℂ)))

theorem om_add (n : Nat) (x y : Int) : om n (x + y) = om n x * om n y := by
  rw [om, om, om, ← Complex.exp_add]
  congr 1
  push_cast
  ring

theorem om_zero (n : Nat) : om n 0 = 1 := by simp [om]

theorem om_mul_self (n : Nat) (hn : 0 < n) (x : Int) : om n (n * x) = 1 := by
  rw [om, Complex.exp_eq_one_iff]
  refine ⟨x, ?_⟩
  have : (n : ℂ) ≠ 0 := by exact_mod_cast hn.ne'
  push_cast
  field_simp

theorem om_eq_one_iff (n : Nat) (hn : 0 < n) (x : Int) : om n x = 1 ↔ (n : Int) ∣ x := by
  constructor
  · intro h
    rw [om, Complex.exp_eq_one_iff] at h
    obtain ⟨k, hk⟩ := h
    have hn' : (n : ℂ) ≠ 0 := by exact_mod_cast hn.ne'
    have hpi : (2 * Real.pi * Complex.I : ℂ) ≠ 0 := Complex.two_pi_I_ne_zero
    refine ⟨k, ?_⟩
    have h2 : (x : ℂ) / n = k := by
      apply mul_left_cancel₀ hpi
      rw [hk]; ring
    rw [div_eq_iff hn'] at h2
    have : (x : ℂ) = ((n * k : Int) : ℂ) := by rw [h2]; push_cast; ring
    exact_mod_cast this
  · rintro ⟨k, rfl⟩
    exact om_mul_self n hn k

theorem om_congr (n : Nat) (hn : 0 < n) (x y : Int) (h : (n : Int) ∣ x - y) : om n x = om n y := by
  have : x = (x - y) + y := by ring
  rw [this, om_add, (om_eq_one_iff n hn _).2 h, one_mul]

theorem om_pow (n : Nat) (x : Int) (m : Nat) : om n x ^ m = om n (m * x) := by
  induction m with
  | zero => simp [om_zero]
  | succ m ih => rw [pow_succ, ih, ← om_add]; congr 1; push_cast; ring

theorem om_star (n : Nat) (x : Int) : star (om n x) = om n (-x) := by
  rw [om, om, Complex.star_def, ← Complex.exp_conj]
  congr 1
  simp only [map_mul, map_div₀, Complex.conj_ofReal, Complex.conj_I, map_intCast, map_natCast,
    map_ofNat]
  push_cast
  ring

theorem norm_om (n : Nat) (x : Int) : ‖om n x‖ = 1 := by
  rw [om, show (2 * Real.pi * Complex.I * ((x : ℂ) / (n : ℂ)) : ℂ) =
    ((2 * Real.pi * (x / n) : ℝ) : ℂ) * Complex.I by push_cast; ring]
  exact Complex.norm_exp_ofReal_mul_I _

theorem sum_om (n : Nat) (hn : 0 < n) (x : Int) :
    (∑ m ∈ Finset.range n, om n (m * x)) = if (n : Int) ∣ x then (n : ℂ) else 0 := by
  simp only [← om_pow]
  split
  · rename_i h
    rw [(om_eq_one_iff n hn x).2 h]
    simp
  · rename_i h
    have h1 : om n x ≠ 1 := fun h' => h ((om_eq_one_iff n hn x).1 h')
    rw [geom_sum_eq h1, om_pow, om_mul_self n hn, sub_self, zero_div]

theorem sum_flatMap' {α M : Type} [AddCommMonoid M] (l : List α) (f : α → List M) :
    (l.flatMap f).sum = (l.map fun a => (f a).sum).sum := by
  induction l with
  | nil => rfl
  | cons a l ih => simp [ih]

theorem sum_mesh3 {M : Type} [AddCommMonoid M] (n1 n2 n3 : Nat) (f : V3 → M) :
    ((mesh3 n1 n2 n3).map f).sum =
      ∑ a ∈ Finset.range n1, ∑ b ∈ Finset.range n2, ∑ c ∈ Finset.range n3,
        f ((a : Int), (b : Int), (c : Int)) := by
  have key : ∀ (n : Nat) (g : Nat → M), ((List.range n).map g).sum = ∑ a ∈ Finset.range n, g a := by
    intro n g
    rw [← List.sum_toFinset _ List.nodup_range, List.toFinset_range]
  unfold mesh3
  rw [List.map_flatMap, sum_flatMap', key]
  refine Finset.sum_congr rfl fun a _ => ?_
  rw [List.map_flatMap, sum_flatMap', key]
  refine Finset.sum_congr rfl fun b _ => ?_
  rw [List.map_map, key]
  rfl

/-- Product of the three phases. -/
noncomputable def om3 (n1 n2 n3 : Nat) (a b : V3) : ℂ :=
  om n1 (a.1 * b.1) * om n2 (a.2.1 * b.2.1) * om n3 (a.2.2 * b.2.2)

theorem om3_comm (n1 n2 n3 : Nat) (a b : V3) : om3 n1 n2 n3 a b = om3 n1 n2 n3 b a := by
  simp only [om3, mul_comm]

theorem mesh_dvd (n : Nat) (a b : Int) (ha : 0 ≤ a ∧ a < n) (hb : 0 ≤ b ∧ b < n) :
    (n : Int) ∣ a - b ↔ a = b := by
  constructor
  · intro h
    exact equiv_mesh_eq n a b ha hb h
  · rintro rfl; simp

theorem orth3 (n1 n2 n3 : Nat) (k k' : V3) (hk : IsMesh n1 n2 n3 k) (hk' : IsMesh n1 n2 n3 k') :
    ((mesh3 n1 n2 n3).map fun m => om3 n1 n2 n3 m k * star (om3 n1 n2 n3 m k')).sum =
      if k = k' then (n1 : ℂ) * n2 * n3 else 0 := by
  obtain ⟨a, b, c⟩ := k
  obtain ⟨a', b', c'⟩ := k'
  obtain ⟨h1, h2, h3⟩ := hk
  obtain ⟨h1', h2', h3'⟩ := hk'
  have p1 : 0 < n1 := by simp only at h1; omega
  have p2 : 0 < n2 := by simp only at h2; omega
  have p3 : 0 < n3 := by simp only at h3; omega
  have : ∀ m : V3, om3 n1 n2 n3 m (a, b, c) * star (om3 n1 n2 n3 m (a', b', c')) =
      om n1 (m.1 * (a - a')) * (om n2 (m.2.1 * (b - b')) * om n3 (m.2.2 * (c - c'))) := by
    intro m
    simp only [om3, star_mul', om_star]
    have e : ∀ n : Nat, ∀ x y z : Int, om n (x * (y - z)) = om n (x * y) * om n (-(x * z)) := by
      intro n x y z
      rw [← om_add]; congr 1; ring
    rw [e, e, e]; ring
  simp only [this]
  rw [sum_mesh3]
  simp only [← Finset.mul_sum, ← Finset.sum_mul]
  rw [sum_om n1 p1, sum_om n2 p2, sum_om n3 p3]
  simp only [mesh_dvd _ _ _ h1 h1', mesh_dvd _ _ _ h2 h2', mesh_dvd _ _ _ h3 h3', Prod.mk.injEq]
  by_cases ha : a = a' <;> by_cases hb : b = b' <;> by_cases hc : c = c' <;> simp [ha, hb, hc]
  ring

theorem ifftn_eq (n1 n2 n3 : Nat) (f : V3 → ℂ) (m : V3) :
    ifftn n1 n2 n3 f m = ((mesh3 n1 n2 n3).map fun k => f k * om3 n1 n2 n3 k m).sum /
      ((n1 : ℂ) * n2 * n3) := by
  unfold ifftn om3 om
  push_cast
  rfl

theorem list_sum_comm {α β : Type} (as : List α) (bs : List β) (f : α → β → ℂ) :
    (as.map fun a => (bs.map fun b => f a b).sum).sum =
      (bs.map fun b => (as.map fun a => f a b).sum).sum := by
  induction as with
  | nil => simp
  | cons a as ih => simp [ih, List.sum_map_add]

theorem sum_ite_mesh (n1 n2 n3 : Nat) (k : V3) (hk : IsMesh n1 n2 n3 k) (f : V3 → ℂ) :
    ((mesh3 n1 n2 n3).map fun k' => if k' = k then f k' else 0).sum = f k := by
  rw [← List.sum_toFinset _ (nodup_mesh3 n1 n2 n3), Finset.sum_ite_eq' _ k]
  simp [(mem_mesh3 n1 n2 n3 k).2 hk]

theorem list_star_sum (l : List ℂ) : star l.sum = (l.map star).sum := by
  induction l with
  | nil => simp
  | cons a l ih => simp [ih]

/-- Inverse transform followed by the transform. -/
theorem dft_inversion (n1 n2 n3 : Nat) (f : V3 → ℂ) (k : V3) (hk : IsMesh n1 n2 n3 k) :
    ((mesh3 n1 n2 n3).map fun m => ifftn n1 n2 n3 f m * star (om3 n1 n2 n3 m k)).sum = f k := by
  have hpos : ((n1 : ℂ) * n2 * n3) ≠ 0 := by
    obtain ⟨⟨h1, h2⟩, ⟨h3, h4⟩, h5, h6⟩ := hk
    have p1 : n1 ≠ 0 := by omega
    have p2 : n2 ≠ 0 := by omega
    have p3 : n3 ≠ 0 := by omega
    exact mul_ne_zero (mul_ne_zero (by exact_mod_cast p1) (by exact_mod_cast p2)) (by exact_mod_cast p3)
  simp only [ifftn_eq]
  have h1 : ∀ m : V3, (((mesh3 n1 n2 n3).map fun k' => f k' * om3 n1 n2 n3 k' m).sum /
      ((n1 : ℂ) * n2 * n3)) * star (om3 n1 n2 n3 m k) =
      ((mesh3 n1 n2 n3).map fun k' => f k' / ((n1 : ℂ) * n2 * n3) *
        (om3 n1 n2 n3 m k' * star (om3 n1 n2 n3 m k))).sum := by
    intro m
    rw [div_mul_eq_mul_div, ← List.sum_map_mul_right, div_eq_mul_inv, ← List.sum_map_mul_right]
    congr 1
    apply List.map_congr_left
    intro k' _
    rw [om3_comm n1 n2 n3 k' m]
    field_simp
  simp only [h1]
  rw [list_sum_comm]
  have h2 : ((mesh3 n1 n2 n3).map fun k' => ((mesh3 n1 n2 n3).map fun m =>
      f k' / ((n1 : ℂ) * n2 * n3) * (om3 n1 n2 n3 m k' * star (om3 n1 n2 n3 m k))).sum) =
      (mesh3 n1 n2 n3).map fun k' => if k' = k then f k' else 0 := by
    apply List.map_congr_left
    intro k' hk'
    rw [List.sum_map_mul_left, orth3 n1 n2 n3 k' k ((mem_mesh3 _ _ _ _).1 hk') hk]
    split
    · exact div_mul_cancel₀ _ hpos
    · simp
  rw [h2, sum_ite_mesh _ _ _ _ hk]

/-- Wave vector of a mesh point. -/
noncomputable def meshK (n1 n2 n3 : Nat) (k : V3) : Fin 3 → ℝ :=
  ![2 * Real.pi * k.1 / n1, 2 * Real.pi * k.2.1 / n2, 2 * Real.pi * k.2.2 / n3]

theorem phase_meshK (n1 n2 n3 : Nat) (R k : V3) : phase R (meshK n1 n2 n3 k) = om3 n1 n2 n3 R k := by
  unfold phase om3 om
  rw [← Complex.exp_add, ← Complex.exp_add]
  congr 1
  simp [meshK]
  ring

theorem meshIndex_isMesh (sgn : Int) (n1 n2 n3 : Nat) (h1 : 0 < n1) (h2 : 0 < n2) (h3 : 0 < n3)
    (R : V3) : IsMesh n1 n2 n3 (meshIndex sgn n1 n2 n3 R) := by
  have key : ∀ (n : Nat) (_ : 0 < n) (x : Int), 0 ≤ x % n ∧ x % n < n := fun n hn x =>
    ⟨Int.emod_nonneg _ (by omega), Int.emod_lt_of_pos _ (by omega)⟩
  exact ⟨key _ h1 _, key _ h2 _, key _ h3 _⟩

theorem om3_meshIndex (sgn : Int) (hs : sgn = 1 ∨ sgn = -1) (n1 n2 n3 : Nat) (h1 : 0 < n1)
    (h2 : 0 < n2) (h3 : 0 < n3) (R k : V3) :
    om3 n1 n2 n3 R k = om3 n1 n2 n3 (sgn * (meshIndex sgn n1 n2 n3 R).1,
      sgn * (meshIndex sgn n1 n2 n3 R).2.1, sgn * (meshIndex sgn n1 n2 n3 R).2.2) k := by
  have key : ∀ (n : Nat) (_ : 0 < n) (x y : Int), om n (x * y) = om n (sgn * (sgn * x % n) * y) := by
    intro n hn x y
    apply om_congr n hn
    have := Int.emod_add_mul_ediv (sgn * x) n
    refine ⟨sgn * (sgn * x / n) * y, ?_⟩
    rcases hs with rfl | rfl
    · linear_combination -y * this
    · linear_combination y * this
  simp only [om3, meshIndex]
  rw [key n1 h1 R.1, key n2 h2 R.2.1, key n3 h3 R.2.2]

/-- Sum over lattice vectors with inverse degeneracies as sum over mesh points. -/
theorem sum_class {ι κ : Type} (sgn : Int) (hs : sgn = 1 ∨ sgn = -1) (n1 n2 n3 : Nat) (h1 : 0 < n1)
    (h2 : 0 < n2) (h3 : 0 < n3) (i : ι) (j : κ) (G : V3 → ℂ) (l : List (V3 × (ι → κ → Nat))) :
    (l.map fun e => G (meshIndex sgn n1 n2 n3 e.1) / (e.2 i j : ℂ)).sum =
      ((mesh3 n1 n2 n3).map fun m => G m * ((weight3 sgn n1 n2 n3 m i j l : ℚ) : ℂ)).sum := by
  induction l with
  | nil => simp [weight3]
  | cons e l ih =>
    rw [List.map_cons, List.sum_cons, ih]
    have hw : ∀ m, weight3 sgn n1 n2 n3 m i j (e :: l) =
        (if InClass sgn n1 n2 n3 m e.1 then 1 / (e.2 i j : ℚ) else 0) + weight3 sgn n1 n2 n3 m i j l := by
      intro m
      unfold weight3
      rw [List.filter_cons]
      split <;> simp_all
    have : ((mesh3 n1 n2 n3).map fun m => G m * ((weight3 sgn n1 n2 n3 m i j (e :: l) : ℚ) : ℂ)) =
        (mesh3 n1 n2 n3).map fun m => (if m = meshIndex sgn n1 n2 n3 e.1 then G m / (e.2 i j : ℂ) else 0) +
          G m * ((weight3 sgn n1 n2 n3 m i j l : ℚ) : ℂ) := by
      apply List.map_congr_left
      intro m hm
      rw [hw]
      have hc : InClass sgn n1 n2 n3 m e.1 ↔ m = meshIndex sgn n1 n2 n3 e.1 := by
        rw [inClass_iff sgn hs n1 n2 n3 m e.1 ((mem_mesh3 _ _ _ _).1 hm)]
        exact eq_comm
      simp only [hc]
      split
      · push_cast; ring
      · simp
    rw [this, List.sum_map_add,
      sum_ite_mesh n1 n2 n3 _ (meshIndex_isMesh sgn n1 n2 n3 h1 h2 h3 e.1)
        (fun m => G m / (e.2 i j : ℂ))]

end Verif.Fourier
