import Verif.Phon.Model
import Verif.Lattice.Lemmas
import Verif.Fourier.Props
import Mathlib.Analysis.SpecialFunctions.ExpDeriv
import Mathlib.Tactic.LinearCombination
import Mathlib.Tactic.FieldSimp
import Mathlib.Tactic.Linarith
import Mathlib.Tactic.FinCases

/-!
# Long-range part of the dynamical matrix (C76, C77)
-/

namespace Verif.Phon

open Verif.Voronoi (V3 mesh3 IsMesh)
open Verif.Lattice (irange mem_irange nodup_irange)
open Verif.Fourier (bloch meshK phase)

variable {n : Nat}

/-! ### Reciprocal lattice vectors come in pairs -/

theorem mem_box (N : Fin 3 → Nat) (m : V3) : m ∈ box N ↔ (-(N 0 : Int) ≤ m.1 ∧ m.1 ≤ N 0) ∧
    (-(N 1 : Int) ≤ m.2.1 ∧ m.2.1 ≤ N 1) ∧ (-(N 2 : Int) ≤ m.2.2 ∧ m.2.2 ≤ N 2) := by
  obtain ⟨a, b, c⟩ := m
  simp only [box, List.mem_flatMap, List.mem_map, mem_irange, Prod.mk.injEq]
  constructor
  · rintro ⟨x, hx, y, hy, z, hz, rfl, rfl, rfl⟩
    omega
  · rintro ⟨hx, hy, hz⟩
    exact ⟨a, by omega, b, by omega, c, by omega, rfl, rfl, rfl⟩

theorem nodup_box (N : Fin 3 → Nat) : (box N).Nodup := by
  unfold box
  rw [List.nodup_flatMap]
  refine ⟨fun x _ => ?_, ?_⟩
  · rw [List.nodup_flatMap]
    refine ⟨fun y _ => (nodup_irange _ _).map fun z z' h => by simpa using h, ?_⟩
    refine (nodup_irange _ _).imp fun {y y'} hy => ?_
    intro v h1 h2
    simp only [List.mem_map] at h1 h2
    obtain ⟨z, _, rfl⟩ := h1
    obtain ⟨z', _, h⟩ := h2
    simp only [Prod.mk.injEq, true_and] at h
    exact hy h.1.symm
  · refine (nodup_irange _ _).imp fun {x x'} hx => ?_
    intro v h1 h2
    simp only [List.mem_flatMap, List.mem_map] at h1 h2
    obtain ⟨y, _, z, _, rfl⟩ := h1
    obtain ⟨y', _, z', _, h⟩ := h2
    simp only [Prod.mk.injEq] at h
    exact hx h.1.symm

/-- Opposite triple. -/
def opp (m : V3) : V3 := (-m.1, -m.2.1, -m.2.2)

theorem opp_opp (m : V3) : opp (opp m) = m := by simp [opp]

theorem box_opp (N : Fin 3 → Nat) : ((box N).map opp).Perm (box N) := by
  rw [List.perm_ext_iff_of_nodup ((nodup_box N).map (Function.LeftInverse.injective opp_opp)) (nodup_box N)]
  intro m
  rw [List.mem_map]
  constructor
  · rintro ⟨m', h, rfl⟩
    rw [mem_box] at h ⊢
    simp only [opp]
    omega
  · intro h
    refine ⟨opp m, ?_, opp_opp m⟩
    rw [mem_box] at h ⊢
    simp only [opp]
    omega

theorem gVec_opp (p : Polar n) (m : V3) : gVec p (opp m) = -gVec p m := by
  funext x
  simp only [gVec, opp, Pi.neg_apply]
  push_cast
  ring

theorem keK_neg (p : Polar n) (K : Fin 3 → ℝ) : keK p (-K) = keK p K := by
  unfold keK
  simp

theorem gList_neg (p : Polar n) (Gmax : ℝ) (G2d : Bool) :
    ((gList p Gmax G2d).map fun g => -g).Perm (gList p Gmax G2d) := by
  unfold gList
  rw [List.map_map]
  have e : ((fun g => -g) ∘ gVec p) = gVec p ∘ opp := by
    funext m
    exact (gVec_opp p m).symm
  rw [e, ← List.map_map]
  apply List.Perm.map
  have e2 : ((box (nr p Gmax G2d)).filter fun m => decide (keK p (gVec p m) < scale p * Gmax)).map opp =
      ((box (nr p Gmax G2d)).map opp).filter fun m => decide (keK p (gVec p m) < scale p * Gmax) := by
    rw [List.filter_map]
    congr 1
    apply List.filter_congr
    intro m _
    simp only [Function.comp, gVec_opp, keK_neg]
  rw [e2]
  exact (box_opp _).filter _

/-! ### Opposite wave vectors -/

theorem factor_neg (p : Polar n) (K : Fin 3 → ℝ) : factor p (-K) = factor p K := by
  unfold factor tanhFactor krK
  simp only [keK_neg]
  simp

theorem factorPerp_neg (p : Polar n) (l : ℝ) (K : Fin 3 → ℝ) : factorPerp p l (-K) = factorPerp p l K := by
  unfold factorPerp tanhFactor
  simp only [keK_neg]

theorem expFactor_neg (p : Polar n) (K : Fin 3 → ℝ) (a : Fin n) : expFactor p (-K) a = star (expFactor p K a) := by
  unfold expFactor
  rw [Complex.star_def, ← Complex.exp_conj]
  congr 1
  simp only [Pi.neg_apply, neg_mul, Finset.sum_neg_distrib, map_neg, map_mul, Complex.conj_I, Complex.conj_ofReal]
  push_cast
  ring

theorem dotFactor_neg (p : Polar n) (z : Fin n → Fin 3 → Fin 3 → ℝ)
    (q : Option (Fin n → Fin 3 → Fin 3 → Fin 3 → ℝ)) (K : Fin 3 → ℝ) (a : Fin n) (u : Fin 3) :
    dotFactor p z q (-K) a u = star (dotFactor p z q K a u) := by
  unfold dotFactor
  simp only [keK_neg, Pi.neg_apply, neg_mul, mul_neg, neg_neg, Finset.sum_neg_distrib]
  cases q with
  | none =>
    simp [Complex.star_def]
  | some q =>
    simp only
    split <;>
    · simp only [Complex.star_def, map_add, map_sub, map_mul, Complex.conj_I, Complex.conj_ofReal, Complex.ofReal_neg,
        map_zero]
      ring

theorem dotPerp_neg (p : Polar n) (z : Fin n → Fin 3 → Fin 3 → ℝ)
    (q : Option (Fin n → Fin 3 → Fin 3 → Fin 3 → ℝ)) (K : Fin 3 → ℝ) (a : Fin n) (u : Fin 3) :
    dotPerp p z q (-K) a u = -star (dotPerp p z q K a u) := by
  unfold dotPerp
  simp only [keK_neg, Pi.neg_apply, mul_neg, Finset.sum_neg_distrib]
  cases q with
  | none =>
    simp [Complex.star_def]
  | some q =>
    simp only [Complex.star_def, map_add, map_mul, Complex.conj_I, Complex.conj_ofReal, Complex.ofReal_neg]
    ring

/-- Wave vectors plus reciprocal lattice vectors considered. -/
noncomputable def kList (p : Polar n) (G : List (Fin 3 → ℝ)) (q : Fin 3 → ℝ) : List (Fin 3 → ℝ) :=
  (G.map fun g => fun x => g x + q 0 * p.b 0 x + q 1 * p.b 1 x + q 2 * p.b 2 x).filter fun K =>
    @decide (keK p K > 1e-10) (Classical.propDecidable _)

theorem kList_neg (p : Polar n) (G : List (Fin 3 → ℝ)) (hG : (G.map fun g => -g).Perm G) (q : Fin 3 → ℝ) :
    (kList p G (-q)).Perm ((kList p G q).map fun K => -K) := by
  have e : (kList p G q).map (fun K => -K) = kList p (G.map fun g => -g) (-q) := by
    unfold kList
    rw [List.map_map]
    have e1 : (fun g : Fin 3 → ℝ => fun x => g x + (-q) 0 * p.b 0 x + (-q) 1 * p.b 1 x + (-q) 2 * p.b 2 x) ∘
        (fun g => -g) = (fun K => -K) ∘ fun g x => g x + q 0 * p.b 0 x + q 1 * p.b 1 x + q 2 * p.b 2 x := by
      funext g x
      simp only [Function.comp, Pi.neg_apply]
      ring
    rw [e1, ← List.map_map]
    generalize G.map (fun g x => g x + q 0 * p.b 0 x + q 1 * p.b 1 x + q 2 * p.b 2 x) = Ks
    rw [List.filter_map]
    congr 1
    apply List.filter_congr
    intro K _
    simp only [Function.comp, keK_neg]
  rw [e]
  exact ((hG.map _).filter _).symm

/-- Contribution of in-plane (or three-dimensional) terms. -/
noncomputable def term (p : Polar n) (z : Fin n → Fin 3 → Fin 3 → ℝ)
    (qu : Option (Fin n → Fin 3 → Fin 3 → Fin 3 → ℝ)) (i j : Fin n × Fin 3) (K : Fin 3 → ℝ) : ℂ :=
  (factor p K : ℂ) * star (dotFactor p z qu K i.1 i.2 * expFactor p K i.1) *
    (dotFactor p z qu K j.1 j.2 * expFactor p K j.1)

/-- Contribution of out-of-plane terms. -/
noncomputable def termPerp (p : Polar n) (l : ℝ) (z : Fin n → Fin 3 → Fin 3 → ℝ)
    (qu : Option (Fin n → Fin 3 → Fin 3 → Fin 3 → ℝ)) (i j : Fin n × Fin 3) (K : Fin 3 → ℝ) : ℂ :=
  (factorPerp p l K : ℂ) * star (dotPerp p z qu K i.1 i.2 * expFactor p K i.1) *
    (dotPerp p z qu K j.1 j.2 * expFactor p K j.1)

theorem einsum_eq (p : Polar n) (G : List (Fin 3 → ℝ)) (z : Fin n → Fin 3 → Fin 3 → ℝ)
    (qu : Option (Fin n → Fin 3 → Fin 3 → Fin 3 → ℝ)) (q : Fin 3 → ℝ) (i j : Fin n × Fin 3) :
    einsumLR (generateLongRange p G z qu q) i j = ((kList p G q).map (term p z qu i j)).sum +
      match p.lr2d, p.L, p.perp with
      | true, some l, true => ((kList p G q).map (termPerp p l z qu i j)).sum
      | _, _, _ => 0 := by
  unfold einsumLR generateLongRange
  rw [List.map_append, List.sum_append, List.map_map]
  refine congrArg₂ (· + ·) rfl ?_
  · generalize p.lr2d = b1
    generalize p.L = l
    generalize p.perp = b2
    rcases b1 with _ | _ <;> rcases l with _ | l <;> rcases b2 with _ | _ <;>
      simp only [List.map_nil, List.sum_nil, List.map_map]
    rfl

theorem star_ofReal' (x : ℝ) : star (x : ℂ) = (x : ℂ) := Complex.conj_ofReal x

theorem term_neg (p : Polar n) (z : Fin n → Fin 3 → Fin 3 → ℝ)
    (qu : Option (Fin n → Fin 3 → Fin 3 → Fin 3 → ℝ)) (i j : Fin n × Fin 3) (K : Fin 3 → ℝ) :
    term p z qu i j (-K) = star (term p z qu i j K) := by
  unfold term
  rw [factor_neg, dotFactor_neg, dotFactor_neg, expFactor_neg, expFactor_neg]
  simp only [star_mul', star_star]
  rw [star_ofReal']

theorem termPerp_neg (p : Polar n) (l : ℝ) (z : Fin n → Fin 3 → Fin 3 → ℝ)
    (qu : Option (Fin n → Fin 3 → Fin 3 → Fin 3 → ℝ)) (i j : Fin n × Fin 3) (K : Fin 3 → ℝ) :
    termPerp p l z qu i j (-K) = star (termPerp p l z qu i j K) := by
  unfold termPerp
  rw [factorPerp_neg, dotPerp_neg, dotPerp_neg, expFactor_neg, expFactor_neg]
  simp only [star_mul', star_star, star_neg, neg_mul, mul_neg, neg_neg]
  rw [star_ofReal']

theorem einsum_neg (p : Polar n) (G : List (Fin 3 → ℝ)) (hG : (G.map fun g => -g).Perm G)
    (z : Fin n → Fin 3 → Fin 3 → ℝ) (qu : Option (Fin n → Fin 3 → Fin 3 → Fin 3 → ℝ)) (q : Fin 3 → ℝ)
    (i j : Fin n × Fin 3) :
    einsumLR (generateLongRange p G z qu (-q)) i j = star (einsumLR (generateLongRange p G z qu q) i j) := by
  rw [einsum_eq, einsum_eq, star_add]
  have key : ∀ f : (Fin 3 → ℝ) → ℂ, (∀ K, f (-K) = star (f K)) →
      ((kList p G (-q)).map f).sum = star (((kList p G q).map f).sum) := by
    intro f hf
    rw [((kList_neg p G hG q).map f).sum_eq, List.map_map, Verif.Fourier.list_star_sum, List.map_map]
    congr 1
    apply List.map_congr_left
    intro K _
    exact hf K
  congr 1
  · exact key _ (term_neg p z qu i j)
  · generalize p.lr2d = b1
    generalize p.L = l
    generalize p.perp = b2
    rcases b1 with _ | _ <;> rcases l with _ | l <;> rcases b2 with _ | _ <;> simp only [star_zero]
    exact key _ (termPerp_neg p l z qu i j)

theorem star_term (p : Polar n) (z : Fin n → Fin 3 → Fin 3 → ℝ)
    (qu : Option (Fin n → Fin 3 → Fin 3 → Fin 3 → ℝ)) (i j : Fin n × Fin 3) (K : Fin 3 → ℝ) :
    star (term p z qu j i K) = term p z qu i j K := by
  unfold term
  simp only [star_mul', star_star]
  rw [star_ofReal']
  ring

theorem star_termPerp (p : Polar n) (l : ℝ) (z : Fin n → Fin 3 → Fin 3 → ℝ)
    (qu : Option (Fin n → Fin 3 → Fin 3 → Fin 3 → ℝ)) (i j : Fin n × Fin 3) (K : Fin 3 → ℝ) :
    star (termPerp p l z qu j i K) = termPerp p l z qu i j K := by
  unfold termPerp
  simp only [star_mul', star_star]
  rw [star_ofReal']
  ring

theorem einsum_star (p : Polar n) (G : List (Fin 3 → ℝ)) (z : Fin n → Fin 3 → Fin 3 → ℝ)
    (qu : Option (Fin n → Fin 3 → Fin 3 → Fin 3 → ℝ)) (q : Fin 3 → ℝ) (i j : Fin n × Fin 3) :
    star (einsumLR (generateLongRange p G z qu q) j i) = einsumLR (generateLongRange p G z qu q) i j := by
  rw [einsum_eq, einsum_eq, star_add]
  have key : ∀ f g : (Fin 3 → ℝ) → ℂ, (∀ K, star (f K) = g K) →
      star (((kList p G q).map f).sum) = ((kList p G q).map g).sum := by
    intro f g hf
    rw [Verif.Fourier.list_star_sum, List.map_map]
    congr 1
    apply List.map_congr_left
    intro K _
    exact hf K
  congr 1
  · exact key _ _ (star_term p z qu i j)
  · generalize p.lr2d = b1
    generalize p.L = l
    generalize p.perp = b2
    rcases b1 with _ | _ <;> rcases l with _ | l <;> rcases b2 with _ | _ <;> simp only [star_zero]
    exact key _ _ (star_termPerp p l z qu i j)

theorem einsum_real (p : Polar n) (G : List (Fin 3 → ℝ)) (hG : (G.map fun g => -g).Perm G)
    (z : Fin n → Fin 3 → Fin 3 → ℝ) (qu : Option (Fin n → Fin 3 → Fin 3 → Fin 3 → ℝ)) (i j : Fin n × Fin 3) :
    star (einsumLR (generateLongRange p G z qu fun _ => 0) i j) =
      einsumLR (generateLongRange p G z qu fun _ => 0) i j := by
  rw [← einsum_neg p G hG]
  congr 2
  funext x
  simp

theorem star_D0lr (p : Polar n) (G : List (Fin 3 → ℝ)) (hG : (G.map fun g => -g).Perm G) (i j : Fin n × Fin 3) :
    star (D0lr p G i j) = D0lr p G i j := by
  unfold D0lr
  split
  · have h : ∀ i j, (starRingEnd ℂ) (einsumLR (generateLongRange p G p.Z p.Q fun _ => 0) i j) =
        einsumLR (generateLongRange p G p.Z p.Q fun _ => 0) i j := fun i j => einsum_real p G hG p.Z p.Q i j
    simp only [Complex.star_def]
    split
    · rw [map_div₀, map_neg, map_sum, Complex.conj_ofReal]
      simp only [h]
    · rw [map_neg, map_sum]
      simp only [h]
  · exact star_zero _

/-- C76: time-reversal symmetry of the long-range part, i.e., the force constants it describes are real. -/
theorem C76_time_reversal (p : Polar n) (Gmax : ℝ) (G2d : Bool) (q : Fin 3 → ℝ) (i j : Fin n × Fin 3) :
    Dlr p Gmax G2d (-q) i j = star (Dlr p Gmax G2d q i j) := by
  unfold Dlr
  simp only
  rw [star_add, star_D0lr p _ (gList_neg p Gmax G2d), einsum_neg p _ (gList_neg p Gmax G2d)]

/-- C76: the q-dependent part of the long-range part is Hermitian. Partial, as the self term `D0_lr` needs not be. -/
theorem C76_hermitian_partial (p : Polar n) (Gmax : ℝ) (G2d : Bool) (q q' : Fin 3 → ℝ) (i j : Fin n × Fin 3) :
    star (Dlr p Gmax G2d q j i - Dlr p Gmax G2d q' j i) = Dlr p Gmax G2d q i j - Dlr p Gmax G2d q' i j := by
  unfold Dlr
  simp only [add_sub_add_left_eq_sub, star_sub, einsum_star]

/-! ### Masses -/

theorem dotFactor_mass (p : Polar n) (K : Fin 3 → ℝ) (a : Fin n) (u : Fin 3) (h : p.divideMass = true) :
    dotFactor p (zMass p) (qMass p) K a u = dotFactor p p.Z p.Q K a u / (Real.sqrt (p.M a) : ℂ) := by
  unfold dotFactor zMass qMass
  simp only [h, if_true]
  have e : ∀ f g : Fin 3 → ℝ, ∑ e, f e * (g e / Real.sqrt (p.M a)) = (∑ e, f e * g e) / Real.sqrt (p.M a) := by
    intro f g
    rw [Finset.sum_div]
    exact Finset.sum_congr rfl fun i _ => by ring
  cases p.Q with
  | none =>
    simp only [Option.map_none, e]
    push_cast
    ring
  | some Q =>
    simp only [Option.map_some, e]
    have e2 : ∑ x, ∑ y, K x * (Q a u x y / Real.sqrt (p.M a)) * K y =
        (∑ x, ∑ y, K x * Q a u x y * K y) / Real.sqrt (p.M a) := by
      rw [Finset.sum_div]
      refine Finset.sum_congr rfl fun x _ => ?_
      rw [Finset.sum_div]
      exact Finset.sum_congr rfl fun y _ => by ring
    rw [e2]
    split
    · push_cast
      ring
    · push_cast
      ring

theorem dotPerp_mass (p : Polar n) (K : Fin 3 → ℝ) (a : Fin n) (u : Fin 3) (h : p.divideMass = true) :
    dotPerp p (zMass p) (qMass p) K a u = dotPerp p p.Z p.Q K a u / (Real.sqrt (p.M a) : ℂ) := by
  unfold dotPerp zMass qMass
  simp only [h, if_true]
  cases p.Q with
  | none =>
    simp only [Option.map_none]
    push_cast
    ring
  | some Q =>
    simp only [Option.map_some, Fin.sum_univ_two]
    push_cast
    ring

theorem einsum_mass (p : Polar n) (G : List (Fin 3 → ℝ)) (q : Fin 3 → ℝ) (i j : Fin n × Fin 3)
    (h : p.divideMass = true) :
    einsumLR (generateLongRange p G (zMass p) (qMass p) q) i j =
      einsumLR (generateLongRange p G p.Z p.Q q) i j / (Real.sqrt (p.M i.1) : ℂ) / (Real.sqrt (p.M j.1) : ℂ) := by
  have key : ∀ f g : (Fin 3 → ℝ) → ℂ, (∀ K, f K = g K / (Real.sqrt (p.M i.1) : ℂ) / (Real.sqrt (p.M j.1) : ℂ)) →
      ((kList p G q).map f).sum = ((kList p G q).map g).sum / (Real.sqrt (p.M i.1) : ℂ) / (Real.sqrt (p.M j.1) : ℂ) := by
    intro f g hf
    rw [div_div, div_eq_mul_inv, ← List.sum_map_mul_right]
    congr 1
    apply List.map_congr_left
    intro K _
    rw [hf, div_div, div_eq_mul_inv]
  rw [einsum_eq, einsum_eq, add_div, add_div]
  congr 1
  · apply key
    intro K
    unfold term
    rw [dotFactor_mass p K _ _ h, dotFactor_mass p K _ _ h, star_mul', star_mul', star_div₀, star_ofReal']
    ring
  · split
    · apply key
      intro K
      unfold termPerp
      rw [dotPerp_mass p K _ _ h, dotPerp_mass p K _ _ h, star_mul', star_mul', star_div₀, star_ofReal']
      ring
    · simp

theorem einsum_noMass (p : Polar n) (G : List (Fin 3 → ℝ)) (q : Fin 3 → ℝ) (i j : Fin n × Fin 3)
    (h : p.divideMass = false) :
    einsumLR (generateLongRange p G (zMass p) (qMass p) q) i j = einsumLR (generateLongRange p G p.Z p.Q q) i j := by
  have h1 : zMass p = p.Z := by
    funext a e u
    simp [zMass, h]
  have h2 : qMass p = p.Q := by
    unfold qMass
    cases p.Q <;> simp [h]
  rw [h1, h2]

/-- C76: acoustic sum rule for the long-range part: its sum over displacements of all atoms vanishes at the center of
the Brillouin zone. -/
theorem C76_acoustic (p : Polar n) (hM : ∀ a, 0 < p.M a) (Gmax : ℝ) (G2d : Bool) (i : Fin n × Fin 3) (y : Fin 3) :
    ∑ a, Dlr p Gmax G2d (fun _ => 0) i (a, y) * (if p.divideMass then (Real.sqrt (p.M a) : ℂ) else 1) = 0 := by
  unfold Dlr D0lr
  simp only
  generalize gList p Gmax G2d = G
  cases h : p.divideMass
  · simp only [einsum_noMass p G _ _ _ h, Bool.false_eq_true, if_false, mul_one, Finset.sum_add_distrib,
      Finset.sum_ite_eq, Finset.mem_univ, if_true]
    ring
  · simp only [einsum_mass p G _ _ _ h, if_true, add_mul, Finset.sum_add_distrib, ite_mul, zero_mul,
      Finset.sum_ite_eq, Finset.mem_univ]
    have h0 : ∀ a, (Real.sqrt (p.M a) : ℂ) ≠ 0 := fun a => by exact_mod_cast (Real.sqrt_pos.2 (hM a)).ne'
    have h1 : (p.M i.1 : ℂ) = (Real.sqrt (p.M i.1) : ℂ) * (Real.sqrt (p.M i.1) : ℂ) := by
      exact_mod_cast (Real.mul_self_sqrt (hM i.1).le).symm
    simp only [div_mul_cancel₀ _ (h0 _)]
    rw [← Finset.sum_div, h1, neg_div, neg_mul, div_mul_eq_mul_div, mul_div_mul_right _ _ (h0 i.1)]
    ring

/-- C76: the long-range part is Hermitian if there are no quadrupoles and the Born effective charges of all atoms are
multiples of the same tensor (e.g., if they are isotropic or if there are two atoms in the unit cell). -/
theorem C76_hermitian (p : Polar n) (hQ : p.Q = none) (c : Fin n → ℝ) (z : Fin 3 → Fin 3 → ℝ)
    (hZ : ∀ a e u, p.Z a e u = c a * z e u) (Gmax : ℝ) (G2d : Bool) (q : Fin 3 → ℝ) (i j : Fin n × Fin 3) :
    star (Dlr p Gmax G2d q j i) = Dlr p Gmax G2d q i j := by
  unfold Dlr
  simp only
  rw [star_add, star_D0lr p _ (gList_neg p Gmax G2d), einsum_star]
  congr 1
  unfold D0lr
  by_cases h : i.1 = j.1
  · rw [if_pos h, if_pos h.symm, h]
    have e : ∀ b, einsumLR (generateLongRange p (gList p Gmax G2d) p.Z p.Q fun _ => 0) j (b, i.2) =
        einsumLR (generateLongRange p (gList p Gmax G2d) p.Z p.Q fun _ => 0) i (b, j.2) := by
      intro b
      rw [einsum_eq, einsum_eq]
      have e1 : ∀ K : Fin 3 → ℝ, ∀ a u, dotFactor p p.Z p.Q K a u =
          Complex.I * ((c a * ∑ e, K e * z e u : ℝ) : ℂ) := by
        intro K a u
        unfold dotFactor
        rw [hQ, Finset.mul_sum]
        simp only [hZ, add_zero]
        congr 2
        exact Finset.sum_congr rfl fun e _ => by ring
      have e2 : ∀ K : Fin 3 → ℝ, ∀ a u, dotPerp p p.Z p.Q K a u =
          Complex.I * ((c a * (Real.sqrt (keK p K) * z 2 u) : ℝ) : ℂ) := by
        intro K a u
        unfold dotPerp
        rw [hQ]
        simp only [hZ, add_zero]
        congr 2
        ring
      congr 1
      · congr 1
        apply List.map_congr_left
        intro K _
        unfold term
        simp only [e1, h, star_mul', star_ofReal', Complex.ofReal_mul]
        ring
      · split
        · congr 1
          apply List.map_congr_left
          intro K _
          unfold termPerp
          simp only [e2, h, star_mul', star_ofReal', Complex.ofReal_mul]
          ring
        · rfl
    simp only [e]
  · rw [if_neg h, if_neg fun h' => h h'.symm]

theorem positive_list (l : List (ℝ × (Fin n × Fin 3 → ℂ))) (hl : ∀ t ∈ l, 0 ≤ t.1) (w : Fin n × Fin 3 → ℂ) :
    ∃ t : ℝ, 0 ≤ t ∧ ∑ i, ∑ j, star (w i) * einsumLR l i j * w j = t := by
  induction l with
  | nil => exact ⟨0, le_rfl, by simp [einsumLR]⟩
  | cons a l ih =>
    obtain ⟨t, ht, h⟩ := ih fun t ht => hl t (List.mem_cons_of_mem _ ht)
    refine ⟨a.1 * Complex.normSq (∑ j, a.2 j * w j) + t,
      add_nonneg (mul_nonneg (hl a List.mem_cons_self) (Complex.normSq_nonneg _)) ht, ?_⟩
    have e : ∀ i j, einsumLR (a :: l) i j = (a.1 : ℂ) * star (a.2 i) * a.2 j + einsumLR l i j := by
      intro i j
      simp [einsumLR]
    simp only [e, mul_add, add_mul, Finset.sum_add_distrib, h]
    push_cast
    congr 1
    rw [Complex.normSq_eq_conj_mul_self, map_sum, Finset.sum_mul_sum, Finset.mul_sum]
    refine Finset.sum_congr rfl fun i _ => ?_
    rw [Finset.mul_sum]
    refine Finset.sum_congr rfl fun j _ => ?_
    rw [map_mul]
    simp only [Complex.star_def]
    ring

/-- C76: in three dimensions, the q-dependent part is positive semidefinite, i.e., long-range terms alone do not
destabilize the crystal. -/
theorem C76_positive (p : Polar n) (h3 : p.lr2d = false) (Gmax : ℝ) (G2d : Bool) (q : Fin 3 → ℝ)
    (w : Fin n × Fin 3 → ℂ) :
    ∃ t : ℝ, 0 ≤ t ∧ ∑ i, ∑ j, star (w i) * (Dlr p Gmax G2d q i j - D0lr p (gList p Gmax G2d) i j) * w j = t := by
  unfold Dlr
  simp only [add_sub_cancel_left]
  apply positive_list
  intro t ht
  unfold generateLongRange at ht
  rw [h3] at ht
  simp only [List.append_nil, List.mem_map, List.mem_filter, decide_eq_true_eq] at ht
  obtain ⟨K, ⟨_, hK⟩, rfl⟩ := ht
  have h0 : 0 < keK p K := lt_trans (by norm_num) hK
  unfold factor
  rw [h3]
  refine div_nonneg (mul_nonneg ?_ (Real.exp_pos _).le) h0.le
  unfold prefactor
  rw [h3]
  simp only [Bool.false_eq_true, if_false]
  have := Real.pi_pos
  positivity

/-- C76: quadrupoles are consistent with dipoles: the first-order change of the long-range term of an atom when its
charges are displaced by `τ` is the term of quadrupoles `Q[u, x, y] = Z[x, u] τ[y] + Z[y, u] τ[x]`. -/
theorem C76_quadrupole (p : Polar n) (h : p.lr2d = false ∨ p.L = none) (τ : Fin n → Fin 3 → ℝ) (K : Fin 3 → ℝ)
    (a : Fin n) (u : Fin 3) :
    HasDerivAt (fun t : ℝ => dotFactor p p.Z none K a u * expFactor { p with r := fun a x => p.r a x + t * τ a x } K a)
      ((dotFactor p p.Z (some fun a u x y => p.Z a x u * τ a y + p.Z a y u * τ a x) K a u -
        dotFactor p p.Z none K a u) * expFactor p K a) 0 := by
  have hc : (p.lr2d && p.L.isSome) = false := by
    rcases h with h | h <;> simp [h]
  have e1 : ∑ x, ∑ y, K x * (p.Z a x u * τ a y + p.Z a y u * τ a x) * K y =
      2 * ((∑ e, K e * p.Z a e u) * ∑ x, K x * τ a x) := by
    simp only [Fin.sum_univ_three]
    ring
  have e2 : dotFactor p p.Z (some fun a u x y => p.Z a x u * τ a y + p.Z a y u * τ a x) K a u -
      dotFactor p p.Z none K a u = (((∑ e, K e * p.Z a e u) * ∑ x, K x * τ a x : ℝ) : ℂ) := by
    unfold dotFactor
    simp only [hc, Bool.false_eq_true, if_false, sub_zero, add_zero, e1, add_sub_cancel_left]
    congr 1
    ring
  have e3 : ∀ t : ℝ, expFactor { p with r := fun a x => p.r a x + t * τ a x } K a =
      Complex.exp (-Complex.I * ((∑ x, K x * p.r a x : ℝ) : ℂ) + (t : ℂ) * (-Complex.I * ((∑ x, K x * τ a x : ℝ) : ℂ))) := by
    intro t
    unfold expFactor
    congr 1
    simp only [mul_add, Finset.sum_add_distrib]
    push_cast
    have : ∑ x, (K x : ℂ) * ((t : ℂ) * (τ a x : ℂ)) = (t : ℂ) * ∑ x, (K x : ℂ) * (τ a x : ℂ) := by
      rw [Finset.mul_sum]
      exact Finset.sum_congr rfl fun x _ => by ring
    rw [this]
    ring
  rw [e2]
  simp only [e3]
  have hd : HasDerivAt (fun t : ℝ => -Complex.I * ((∑ x, K x * p.r a x : ℝ) : ℂ) +
      (t : ℂ) * (-Complex.I * ((∑ x, K x * τ a x : ℝ) : ℂ))) (-Complex.I * ((∑ x, K x * τ a x : ℝ) : ℂ)) 0 := by
    have := ((Complex.ofRealCLM.hasDerivAt (x := (0 : ℝ))).mul_const
      (-Complex.I * ((∑ x, K x * τ a x : ℝ) : ℂ))).const_add (-Complex.I * ((∑ x, K x * p.r a x : ℝ) : ℂ))
    simpa using this
  refine ((hd.cexp).const_mul (dotFactor p p.Z none K a u)).congr_deriv ?_
  unfold dotFactor expFactor
  simp only [Complex.ofReal_zero, zero_mul, add_zero]
  push_cast
  linear_combination (-(∑ e, (K e : ℂ) * (p.Z a e u : ℂ)) * (∑ x, (K x : ℂ) * (τ a x : ℂ)) *
    Complex.exp (-Complex.I * ∑ x, (K x : ℂ) * (p.r a x : ℂ))) * Complex.I_mul_I

/-! ### C77 -/

theorem bloch_neg (n1 n2 n3 : Nat) (l : List (V3 × (Fin n × Fin 3 → Fin n × Fin 3 → ℂ)))
    (hl : ∀ e ∈ l, ∀ i j, star (e.2 i j) = e.2 i j) (m : V3) (hm : IsMesh n1 n2 n3 m) (i j : Fin n × Fin 3) :
    bloch l (meshK n1 n2 n3 (Verif.Fourier.negMesh n1 n2 n3 m)) i j = star (bloch l (meshK n1 n2 n3 m) i j) := by
  unfold bloch
  rw [Verif.Fourier.list_star_sum, List.map_map]
  congr 1
  apply List.map_congr_left
  intro e he
  simp only [Function.comp, star_mul', hl e he, Verif.Fourier.phase_meshK, Verif.Fourier.om3_negMesh _ _ _ _ _ hm]

/-- C77: the dynamical matrix after `update_short_range` at a point of the original mesh: the original one, made
symmetric under time reversal in its short-range part. -/
theorem C77_update (size : Nat) (hsize : 0 < size) (n1 n2 n3 : Nat) (p : Polar n) (hM : ∀ a, 0 < p.M a) (Gmax : ℝ)
    (G2d : Bool) (D0 : V3 → Fin n × Fin 3 → Fin n × Fin 3 → ℂ) :
    ∃ l, updateShortRange size n1 n2 n3 p Gmax G2d D0 = some l ∧
      ∀ m, IsMesh n1 n2 n3 m → ∀ i j, Dfull p Gmax G2d l (meshK n1 n2 n3 m) i j =
        D0 m i j - ((D0 m i j - Dlr p Gmax G2d (meshK n1 n2 n3 m) i j) -
          star (D0 (Verif.Fourier.negMesh n1 n2 n3 m) i j -
            Dlr p Gmax G2d (meshK n1 n2 n3 (Verif.Fourier.negMesh n1 n2 n3 m)) i j)) / 2 := by
  obtain ⟨l, hl, hb⟩ := Verif.Fourier.C28_ph_general size hsize n1 n2 n3 p.a p.r p.M hM p.divideMass p.divideMass
    fun m i j => D0 m i j - Dlr p Gmax G2d (meshK n1 n2 n3 m) i j
  refine ⟨l, hl, ?_⟩
  intro m hm i j
  unfold Dfull
  rw [hb m hm i j]
  have : Verif.Fourier.massFactor p.divideMass p.divideMass (p.M i.1) (p.M j.1) = 1 := by
    cases p.divideMass <;> rfl
  rw [this]
  ring

/-- C77: sampling a model with real force constants and updating its short-range part without changing charges,
dielectric tensor, etc., in between does not change the dynamical matrix at points of the mesh. -/
theorem C77_roundtrip (size : Nat) (hsize : 0 < size) (n1 n2 n3 : Nat) (p : Polar n) (hM : ∀ a, 0 < p.M a) (Gmax : ℝ)
    (G2d : Bool) (l0 : List (V3 × (Fin n × Fin 3 → Fin n × Fin 3 → ℂ)))
    (hl0 : ∀ e ∈ l0, ∀ i j, star (e.2 i j) = e.2 i j) :
    ∃ l, updateShortRange size n1 n2 n3 p Gmax G2d (sampleOrig p Gmax G2d n1 n2 n3 l0) = some l ∧
      ∀ m, IsMesh n1 n2 n3 m → ∀ i j, Dfull p Gmax G2d l (meshK n1 n2 n3 m) i j =
        Dfull p Gmax G2d l0 (meshK n1 n2 n3 m) i j := by
  obtain ⟨l, hl, hb⟩ := C77_update size hsize n1 n2 n3 p hM Gmax G2d (sampleOrig p Gmax G2d n1 n2 n3 l0)
  refine ⟨l, hl, ?_⟩
  intro m hm i j
  rw [hb m hm i j]
  unfold sampleOrig Dfull
  rw [bloch_neg n1 n2 n3 l0 hl0 m hm i j]
  simp only [add_sub_cancel_right, star_star, sub_self, zero_div, sub_zero]

/-- C77: whatever charges, dielectric tensor, etc. are chosen, a dynamical matrix that is real at the center of the
Brillouin zone is reproduced there. -/
theorem C77_center (size : Nat) (hsize : 0 < size) (n1 n2 n3 : Nat) (h1 : 0 < n1) (h2 : 0 < n2) (h3 : 0 < n3)
    (p : Polar n) (hM : ∀ a, 0 < p.M a) (Gmax : ℝ) (G2d : Bool) (D0 : V3 → Fin n × Fin 3 → Fin n × Fin 3 → ℂ)
    (hD : ∀ i j, star (D0 (0, 0, 0) i j) = D0 (0, 0, 0) i j) :
    ∃ l, updateShortRange size n1 n2 n3 p Gmax G2d D0 = some l ∧
      ∀ i j, Dfull p Gmax G2d l (fun _ => 0) i j = D0 (0, 0, 0) i j := by
  obtain ⟨l, hl, hb⟩ := C77_update size hsize n1 n2 n3 p hM Gmax G2d D0
  refine ⟨l, hl, ?_⟩
  intro i j
  have h0 : meshK n1 n2 n3 (0, 0, 0) = fun _ => 0 := by
    funext x
    fin_cases x <;> simp [meshK]
  have hn : Verif.Fourier.negMesh n1 n2 n3 (0, 0, 0) = (0, 0, 0) := by simp [Verif.Fourier.negMesh]
  have hb0 := hb (0, 0, 0) ⟨⟨le_rfl, Int.natCast_pos.2 h1⟩, ⟨le_rfl, Int.natCast_pos.2 h2⟩, le_rfl, Int.natCast_pos.2 h3⟩
    i j
  have hr : star (Dlr p Gmax G2d (fun _ => 0) i j) = Dlr p Gmax G2d (fun _ => 0) i j := by
    rw [← C76_time_reversal]
    congr 1
    funext x
    simp
  rw [hn, h0, star_sub, hD, hr] at hb0
  rw [hb0]
  ring

/-- A polar crystal of two atoms. -/
noncomputable def polarExample : Polar 2 where
  a := fun x y => if x = y then 10 else 0
  b := fun x y => if x = y then 1 / 10 else 0
  r := fun a _ => if a = 0 then 0 else 5
  eps := fun x y => if x = y then 3 else 0
  Z := fun a x y => if x = y then (if a = 0 then 2 else -2) else 0
  Q := none
  M := fun a => if a = 0 then 4 else 9
  lr2d := false
  L := none
  perp := true
  divideMass := true
  alpha := 1

example (q : Fin 3 → ℝ) (i j : Fin 2 × Fin 3) :
    star (Dlr polarExample 28 false q j i) = Dlr polarExample 28 false q i j :=
  C76_hermitian polarExample rfl (fun a => if a = 0 then 2 else -2) (fun x y => if x = y then 1 else 0)
    (fun a e u => by simp [polarExample]) 28 false q i j

example (τ : Fin 2 → Fin 3 → ℝ) (K : Fin 3 → ℝ) := C76_quadrupole polarExample (Or.inl rfl) τ K 1 2

example (i : Fin 2 × Fin 3) (y : Fin 3) :
    Dlr polarExample 28 false (fun _ => 0) i (0, y) * (Real.sqrt 4 : ℂ) +
      Dlr polarExample 28 false (fun _ => 0) i (1, y) * (Real.sqrt 9 : ℂ) = 0 := by
  have h := C76_acoustic polarExample (by intro a; simp only [polarExample]; split <;> norm_num) 28 false i y
  rw [Fin.sum_univ_two] at h
  simpa [polarExample] using h

example : ∃ l, updateShortRange 1 2 2 2 polarExample 28 false (sampleOrig polarExample 28 false 2 2 2
      [((1, 0, 0), fun _ _ => 3), ((-1, 0, 0), fun _ _ => 3)]) = some l ∧
    Dfull polarExample 28 false l (meshK 2 2 2 (1, 0, 0)) (0, 0) (1, 0) =
      Dfull polarExample 28 false [((1, 0, 0), fun _ _ => 3), ((-1, 0, 0), fun _ _ => 3)]
        (meshK 2 2 2 (1, 0, 0)) (0, 0) (1, 0) := by
  obtain ⟨l, hl, hb⟩ := C77_roundtrip 1 one_pos 2 2 2 polarExample
    (by intro a; simp only [polarExample]; split <;> norm_num) 28 false
    [((1, 0, 0), fun _ _ => 3), ((-1, 0, 0), fun _ _ => 3)] (by
      intro e he i j
      simp only [List.mem_cons, List.not_mem_nil, or_false] at he
      rcases he with rfl | rfl <;> simp [Complex.star_def])
  exact ⟨l, hl, hb (1, 0, 0) ⟨by decide, by decide, by decide⟩ _ _⟩

example (q : Fin 3 → ℝ) := C76_time_reversal polarExample 28 false q (0, 1) (1, 2)

example (q q' : Fin 3 → ℝ) := C76_hermitian_partial polarExample 28 false q q' (0, 1) (1, 2)

example (q : Fin 3 → ℝ) (w : Fin 2 × Fin 3 → ℂ) := C76_positive polarExample rfl 28 false q w

end Verif.Phon
