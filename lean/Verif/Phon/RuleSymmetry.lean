import Verif.Phon.GramSchmidt
import Mathlib.LinearAlgebra.Matrix.NonsingularInverse

/-!
# Sum-rule corrections and symmetries of the crystal (C172)
-/

namespace Verif.Phon

open Verif.Voronoi (V3)

variable {nR nat : Nat}

/-- A symmetry operation of the crystal: atoms are permuted by `π`, directions are rotated by `O`, and the bond from atom
`k` to atom `l` with lattice vector number `n` is mapped to the one with lattice vector number `shift k l n`. The list of
lattice vectors is closed. -/
structure CrystalOp (R : Fin nR → Fin 3 → ℝ) (r : Fin nat → Fin 3 → ℝ) where
  π : Equiv.Perm (Fin nat)
  O : Fin 3 → Fin 3 → ℝ
  shift : Fin nat → Fin nat → Equiv.Perm (Fin nR)
  orth : ∀ x y, ∑ z, O z x * O z y = if x = y then 1 else 0
  bonds : ∀ k l n x, R (shift k l n) x + r (π l) x - r (π k) x = ∑ y, O x y * (R n y + r l y - r k y)

/-- `C'` are the force constants `C` of the crystal after the operation. -/
def CrystalOp.Image {R : Fin nR → Fin 3 → ℝ} {r : Fin nat → Fin 3 → ℝ} (g : CrystalOp R r) (C C' : Index nR nat → ℝ) : Prop :=
  ∀ n k l x y, C' (g.shift k l n, (g.π k, x), (g.π l, y)) = ∑ x', ∑ y', g.O x x' * g.O y y' * C (n, (k, x'), (l, y'))

/-- Acoustic and rotation sum rules. -/
structure SumRules (asr rsr : Bool) (R : Fin nR → Fin 3 → ℝ) (r : Fin nat → Fin 3 → ℝ) (X : Index nR nat → ℝ) : Prop where
  acoustic : asr = true → ∀ k x y, ∑ n, ∑ l, X (n, (k, x), (l, y)) = 0
  rotation : rsr = true → ∀ k x1 x2 y, ∑ n, ∑ l, (X (n, (k, x1), (l, y)) * (R n x2 + r l x2) -
      X (n, (k, x2), (l, y)) * (R n x1 + r l x1)) = 0

/-- Cartesian coordinates of a lattice. -/
structure IsLattice (Rint : Fin nR → V3) (R : Fin nR → Fin 3 → ℝ) : Prop where
  symm : Symmetric Rint
  neg : ∀ n m, Rint m = (-(Rint n).1, -(Rint n).2.1, -(Rint n).2.2) → ∀ x, R m x = -R n x
  inj : Function.Injective R

section Ops

variable {R : Fin nR → Fin 3 → ℝ} {r : Fin nat → Fin 3 → ℝ}

theorem CrystalOp.orth' (g : CrystalOp R r) (x y : Fin 3) : ∑ z, g.O x z * g.O y z = if x = y then 1 else 0 := by
  have h : (Matrix.of g.O).transpose * Matrix.of g.O = 1 := by
    ext i j
    simp only [Matrix.mul_apply, Matrix.transpose_apply, Matrix.of_apply, Matrix.one_apply]
    exact g.orth i j
  have h2 := mul_eq_one_comm.1 h
  have h3 := congrFun (congrFun h2 x) y
  simpa only [Matrix.mul_apply, Matrix.transpose_apply, Matrix.of_apply, Matrix.one_apply] using h3

/-- The inverse operation. -/
def CrystalOp.inv (g : CrystalOp R r) : CrystalOp R r where
  π := g.π.symm
  O := fun x y => g.O y x
  shift := fun k l => (g.shift (g.π.symm k) (g.π.symm l)).symm
  orth := fun x y => g.orth' x y
  bonds := by
    intro k l n x
    have h := g.bonds (g.π.symm k) (g.π.symm l) ((g.shift (g.π.symm k) (g.π.symm l)).symm n)
    simp only [Equiv.apply_symm_apply] at h
    simp only [h, Finset.mul_sum]
    rw [Finset.sum_comm]
    simp only [← mul_assoc, ← Finset.sum_mul]
    simp only [g.orth]
    simp

theorem sum_bonds (g : CrystalOp R r) (k : Fin nat) (f : Fin nR → Fin nat → ℝ) :
    ∑ n, ∑ l, f n l = ∑ n, ∑ l, f (g.shift k l n) (g.π l) := by
  rw [Finset.sum_comm, ← Equiv.sum_comp g.π]
  rw [Finset.sum_comm (f := fun n l => f (g.shift k l n) (g.π l))]
  exact Finset.sum_congr rfl fun l _ => (Equiv.sum_comp (g.shift k l) fun n => f n (g.π l)).symm

theorem rotate_sq (O : Fin 3 → Fin 3 → ℝ) (h : ∀ x y, ∑ z, O z x * O z y = if x = y then 1 else 0) (v : Fin 3 → ℝ) :
    ∑ x, (∑ y, O x y * v y) ^ 2 = ∑ x, v x ^ 2 := by
  have e : ∀ x, (∑ y, O x y * v y) ^ 2 = ∑ y, ∑ y', O x y * O x y' * (v y * v y') := by
    intro x
    rw [pow_two, Finset.sum_mul_sum]
    exact Finset.sum_congr rfl fun y _ => Finset.sum_congr rfl fun y' _ => by ring
  simp only [e]
  rw [Finset.sum_comm]
  refine Finset.sum_congr rfl fun y _ => ?_
  rw [Finset.sum_comm]
  simp only [← Finset.sum_mul, h]
  simp [pow_two]

theorem CrystalOp.Image.sq {g : CrystalOp R r} {C C' : Index nR nat → ℝ} (h : g.Image C C') :
    ∑ i, C' i ^ 2 = ∑ i, C i ^ 2 := by
  have e : ∀ X : Index nR nat → ℝ, ∑ i, X i ^ 2 = ∑ k, ∑ n, ∑ l, ∑ x, ∑ y, X (n, (k, x), (l, y)) ^ 2 := by
    intro X
    simp only [Fintype.sum_prod_type]
    rw [Finset.sum_comm]
    refine Finset.sum_congr rfl fun k _ => Finset.sum_congr rfl fun n _ => ?_
    rw [Finset.sum_comm]
  rw [e, e, ← Equiv.sum_comp g.π]
  refine Finset.sum_congr rfl fun k _ => ?_
  rw [sum_bonds g k]
  refine Finset.sum_congr rfl fun n _ => Finset.sum_congr rfl fun l _ => ?_
  have e2 : ∀ x y, C' (g.shift k l n, (g.π k, x), (g.π l, y)) =
      ∑ x', g.O x x' * ∑ y', g.O y y' * C (n, (k, x'), (l, y')) := by
    intro x y
    rw [h]
    refine Finset.sum_congr rfl fun x' _ => ?_
    rw [Finset.mul_sum]
    exact Finset.sum_congr rfl fun y' _ => mul_assoc _ _ _
  simp only [e2]
  rw [Finset.sum_comm]
  simp only [rotate_sq g.O g.orth]
  rw [Finset.sum_comm]
  simp only [rotate_sq g.O g.orth]

theorem CrystalOp.Image.sub {g : CrystalOp R r} {C C' D D' : Index nR nat → ℝ} (h : g.Image C C') (h2 : g.Image D D') :
    g.Image (C - D) (C' - D') := by
  intro n k l x y
  simp only [Pi.sub_apply, h n k l x y, h2 n k l x y, mul_sub, Finset.sum_sub_distrib]

theorem CrystalOp.Image.add {g : CrystalOp R r} {C C' D D' : Index nR nat → ℝ} (h : g.Image C C') (h2 : g.Image D D') :
    g.Image (C + D) (C' + D') := by
  intro n k l x y
  simp only [Pi.add_apply, h n k l x y, h2 n k l x y, mul_add, Finset.sum_add_distrib]

theorem CrystalOp.Image.inv {g : CrystalOp R r} {C C' : Index nR nat → ℝ} (h : g.Image C C') : g.inv.Image C' C := by
  intro n k l x y
  have h' := h ((g.shift (g.π.symm k) (g.π.symm l)).symm n) (g.π.symm k) (g.π.symm l)
  simp only [Equiv.apply_symm_apply] at h'
  show C ((g.shift (g.π.symm k) (g.π.symm l)).symm n, (g.π.symm k, x), (g.π.symm l, y)) =
    ∑ x', ∑ y', g.O x' x * g.O y' y * C' (n, (k, x'), (l, y'))
  simp only [h']
  generalize hD : (fun x' y' => C ((g.shift (g.π.symm k) (g.π.symm l)).symm n, (g.π.symm k, x'), (g.π.symm l, y'))) = D
  have e : ∀ x' y', C ((g.shift (g.π.symm k) (g.π.symm l)).symm n, (g.π.symm k, x'), (g.π.symm l, y')) = D x' y' := by
    intro x' y'
    rw [← hD]
  simp only [e]
  have e2 : ∀ x' y', g.O x' x * g.O y' y * ∑ u, ∑ v, g.O x' u * g.O y' v * D u v =
      ∑ u, ∑ v, (g.O x' x * g.O x' u) * ((g.O y' y * g.O y' v) * D u v) := by
    intro x' y'
    simp only [Finset.mul_sum]
    exact Finset.sum_congr rfl fun u _ => Finset.sum_congr rfl fun v _ => by ring
  simp only [e2]
  have e3 : ∑ x', ∑ y', ∑ u, ∑ v, (g.O x' x * g.O x' u) * ((g.O y' y * g.O y' v) * D u v) =
      ∑ u, (∑ x', g.O x' x * g.O x' u) * ∑ v, (∑ y', g.O y' y * g.O y' v) * D u v := by
    simp only [Finset.sum_mul, Finset.mul_sum]
    have : ∀ x', ∑ y', ∑ u, ∑ v, (g.O x' x * g.O x' u) * ((g.O y' y * g.O y' v) * D u v) =
        ∑ u, ∑ v, ∑ y', (g.O x' x * g.O x' u) * ((g.O y' y * g.O y' v) * D u v) := by
      intro x'
      rw [Finset.sum_comm]
      exact Finset.sum_congr rfl fun u _ => Finset.sum_comm
    simp only [this]
    rw [Finset.sum_comm]
    refine Finset.sum_congr rfl fun u _ => ?_
    rw [Finset.sum_comm]
    exact Finset.sum_congr rfl fun v _ => Finset.sum_comm
  rw [e3]
  simp only [g.orth]
  simp

/-- Force constants after the operation. -/
def CrystalOp.act (g : CrystalOp R r) (C : Index nR nat → ℝ) : Index nR nat → ℝ := fun i =>
  ∑ x', ∑ y', g.O i.2.1.2 x' * g.O i.2.2.2 y' *
    C ((g.shift (g.π.symm i.2.1.1) (g.π.symm i.2.2.1)).symm i.1, (g.π.symm i.2.1.1, x'), (g.π.symm i.2.2.1, y'))

theorem CrystalOp.image_act (g : CrystalOp R r) (C : Index nR nat → ℝ) : g.Image C (g.act C) := by
  intro n k l x y
  unfold CrystalOp.act
  simp only [Equiv.symm_apply_apply]

theorem CrystalOp.Image.rules {g : CrystalOp R r} {C C' : Index nR nat → ℝ} (h : g.Image C C') {asr rsr : Bool}
    (ho : rsr = true → asr = true ∨ ∀ k x, r (g.π k) x = ∑ y, g.O x y * r k y) (hs : SumRules asr rsr R r C) :
    SumRules asr rsr R r C' := by
  have hac : asr = true → ∀ k x y, ∑ n, ∑ l, C' (n, (k, x), (l, y)) = 0 := by
    intro ha k' x y
    obtain ⟨k, rfl⟩ := g.π.surjective k'
    rw [sum_bonds g k]
    simp only [h _ k]
    have e : ∑ n, ∑ l, ∑ x', ∑ y', g.O x x' * g.O y y' * C (n, (k, x'), (l, y')) =
        ∑ x', ∑ y', g.O x x' * g.O y y' * ∑ n, ∑ l, C (n, (k, x'), (l, y')) := by
      simp only [Finset.mul_sum]
      have : ∀ n, ∑ l, ∑ x', ∑ y', g.O x x' * g.O y y' * C (n, (k, x'), (l, y')) =
          ∑ x', ∑ y', ∑ l, g.O x x' * g.O y y' * C (n, (k, x'), (l, y')) := by
        intro n
        rw [Finset.sum_comm]
        exact Finset.sum_congr rfl fun _ _ => Finset.sum_comm
      simp only [this]
      rw [Finset.sum_comm]
      exact Finset.sum_congr rfl fun _ _ => Finset.sum_comm
    rw [e]
    simp only [hs.acoustic ha]
    simp
  refine ⟨hac, fun hr k' x1 x2 y => ?_⟩
  obtain ⟨k, rfl⟩ := g.π.surjective k'
  -- moments
  have hsym : ∀ u v w, ∑ n, ∑ l, C (n, (k, u), (l, w)) * (R n v + r l v) =
      ∑ n, ∑ l, C (n, (k, v), (l, w)) * (R n u + r l u) := by
    intro u v w
    have := hs.rotation hr k u v w
    simp only [Finset.sum_sub_distrib] at this
    exact sub_eq_zero.1 this
  have hmom : ∀ u v, ∑ n, ∑ l, C' (n, (g.π k, u), (l, y)) * (R n v + r l v) =
      ∑ a, ∑ b, g.O u a * g.O v b * ∑ w, g.O y w * ∑ n, ∑ l, C (n, (k, a), (l, w)) * (R n b + r l b) := by
    intro u v
    have hp : ∀ n l, R (g.shift k l n) v + r (g.π l) v =
        (∑ b, g.O v b * (R n b + r l b)) + (r (g.π k) v - ∑ b, g.O v b * r k b) := by
      intro n l
      have := g.bonds k l n v
      have e : ∑ b, g.O v b * (R n b + r l b - r k b) = (∑ b, g.O v b * (R n b + r l b)) - ∑ b, g.O v b * r k b := by
        rw [← Finset.sum_sub_distrib]
        exact Finset.sum_congr rfl fun b _ => mul_sub _ _ _
      rw [e] at this
      linarith
    rw [sum_bonds g k]
    simp only [hp, mul_add _ (∑ b, _), Finset.sum_add_distrib]
    have hz : ∑ n, ∑ l, C' (g.shift k l n, (g.π k, u), (g.π l, y)) * (r (g.π k) v - ∑ b, g.O v b * r k b) = 0 := by
      rcases ho hr with ha | hd
      · simp only [← Finset.sum_mul]
        rw [← sum_bonds g k fun n l => C' (n, (g.π k, u), (l, y)), hac ha, zero_mul]
      · simp [hd]
    rw [hz, add_zero]
    simp only [h _ k]
    have e1 : ∀ n l, (∑ a, ∑ w, g.O u a * g.O y w * C (n, (k, a), (l, w))) * ∑ b, g.O v b * (R n b + r l b) =
        ∑ a, ∑ b, ∑ w, g.O u a * g.O v b * (g.O y w * (C (n, (k, a), (l, w)) * (R n b + r l b))) := by
      intro n l
      rw [Finset.sum_mul]
      refine Finset.sum_congr rfl fun a _ => ?_
      rw [Finset.sum_mul_sum, Finset.sum_comm]
      exact Finset.sum_congr rfl fun b _ => Finset.sum_congr rfl fun w _ => by ring
    simp only [e1, Finset.mul_sum]
    have e2 : ∀ n, ∑ l, ∑ a, ∑ b, ∑ w, g.O u a * g.O v b * (g.O y w * (C (n, (k, a), (l, w)) * (R n b + r l b))) =
        ∑ a, ∑ b, ∑ w, ∑ l, g.O u a * g.O v b * (g.O y w * (C (n, (k, a), (l, w)) * (R n b + r l b))) := by
      intro n
      rw [Finset.sum_comm]
      refine Finset.sum_congr rfl fun _ _ => ?_
      rw [Finset.sum_comm]
      exact Finset.sum_congr rfl fun _ _ => Finset.sum_comm
    simp only [e2]
    rw [Finset.sum_comm]
    refine Finset.sum_congr rfl fun _ _ => ?_
    rw [Finset.sum_comm]
    exact Finset.sum_congr rfl fun _ _ => Finset.sum_comm
  simp only [Finset.sum_sub_distrib]
  rw [hmom, hmom, sub_eq_zero, Finset.sum_comm]
  refine Finset.sum_congr rfl fun b _ => Finset.sum_congr rfl fun a _ => ?_
  rw [mul_comm (g.O x1 a)]
  refine congrArg (fun z => g.O x2 b * g.O x1 a * z) ?_
  exact Finset.sum_congr rfl fun w _ => by rw [hsym]

theorem CrystalOp.shift_minus (g : CrystalOp R r) {Rint : Fin nR → V3} (hL : IsLattice Rint R) (k l : Fin nat) (n : Fin nR) :
    g.shift l k (minusR Rint n) = minusR Rint (g.shift k l n) := by
  apply hL.inj
  funext x
  rw [hL.neg _ _ (minusR_spec hL.symm (g.shift k l n)) x]
  have h1 := g.bonds l k (minusR Rint n) x
  have h2 := g.bonds k l n x
  have e : ∑ y, g.O x y * (R (minusR Rint n) y + r k y - r l y) = -∑ y, g.O x y * (R n y + r l y - r k y) := by
    rw [← Finset.sum_neg_distrib]
    refine Finset.sum_congr rfl fun y _ => ?_
    rw [hL.neg _ _ (minusR_spec hL.symm n) y]
    ring
  rw [e, ← h2] at h1
  linarith

theorem CrystalOp.Image.swap {g : CrystalOp R r} {C C' : Index nR nat → ℝ} (h : g.Image C C') {Rint : Fin nR → V3}
    (hL : IsLattice Rint R) : g.Image (fun i => C (swap Rint i)) fun i => C' (swap Rint i) := by
  intro n k l x y
  show C' (minusR Rint (g.shift k l n), (g.π l, y), (g.π k, x)) = _
  rw [← g.shift_minus hL, h, Finset.sum_comm]
  refine Finset.sum_congr rfl fun x' _ => Finset.sum_congr rfl fun y' _ => ?_
  rw [mul_comm (g.O y y')]
  rfl

end Ops

/-- Vectors orthogonal to the symmetrized constraints are those whose symmetrization satisfies the sum rules. -/
theorem orthogonal_iff (asr rsr : Bool) {Rint : Fin nR → V3} (h : Symmetric Rint) (R : Fin nR → Fin 3 → ℝ)
    (r : Fin nat → Fin 3 → ℝ) (X : Index nR nat → ℝ) :
    (∀ c ∈ (constraints asr rsr R r).map (symmetrizeConstraint (minusR Rint)), dotp c X = 0) ↔
      SumRules asr rsr R r (X + fun i => X (swap Rint i)) := by
  have e : ∀ c, dotp (symmetrizeConstraint (minusR Rint) c) X = dotp c (X + fun i => X (swap Rint i)) := by
    intro c
    have : symmetrizeConstraint (minusR Rint) c = c + fun i => c (swap Rint i) := rfl
    rw [this, dotp_comm, dotp_add, dotp_add, dotp_comm X c, dotp_comm X, dotp_swap h]
  simp only [List.mem_map, forall_exists_index, and_imp, forall_apply_eq_imp_iff₂, e]
  generalize X + (fun i => X (swap Rint i)) = Y
  constructor
  · intro hc
    constructor
    · intro ha k x y
      rw [← dotp_asrConstraint]
      apply hc
      unfold constraints
      apply List.mem_append_left
      rw [if_pos ha, List.mem_flatMap]
      refine ⟨k, List.mem_finRange k, ?_⟩
      rw [List.mem_flatMap]
      refine ⟨x, List.mem_finRange x, ?_⟩
      rw [List.mem_map]
      exact ⟨y, List.mem_finRange y, rfl⟩
    · intro ha k x1 x2 y
      rw [← dotp_rsrConstraint]
      apply hc
      unfold constraints
      apply List.mem_append_right
      rw [if_pos ha, List.mem_flatMap]
      refine ⟨k, List.mem_finRange k, ?_⟩
      rw [List.mem_flatMap]
      refine ⟨x1, List.mem_finRange x1, ?_⟩
      rw [List.mem_flatMap]
      refine ⟨x2, List.mem_finRange x2, ?_⟩
      rw [List.mem_map]
      exact ⟨y, List.mem_finRange y, rfl⟩
  · intro hs c hc
    unfold constraints at hc
    rcases List.mem_append.1 hc with hc | hc
    · split at hc
      · rename_i ha
        simp only [List.mem_flatMap, List.mem_map] at hc
        obtain ⟨k, _, x, _, y, _, rfl⟩ := hc
        rw [dotp_asrConstraint]
        exact hs.acoustic ha k x y
      · simp at hc
    · split at hc
      · rename_i ha
        simp only [List.mem_flatMap, List.mem_map] at hc
        obtain ⟨k, _, x1, _, x2, _, y, _, rfl⟩ := hc
        rw [dotp_rsrConstraint]
        exact hs.rotation ha k x1 x2 y
      · simp at hc

section Unique

variable {ι : Type} [Fintype ι]

/-- The threshold only removes constraints that are exactly redundant. -/
def Exact (eps : ℝ) (cs : List (ι → ℝ)) : Prop := ∀ p ∈ gramSchmidt eps cs, p.2 ≤ eps → p.2 = 0

theorem exact_zero (cs : List (ι → ℝ)) : Exact 0 cs := by
  intro p hp h
  have := (gramSchmidt_good le_rfl cs).square p hp
  exact le_antisymm h (this ▸ dotp_self_nonneg p.1)

theorem corrected_orth {eps : ℝ} (h0 : 0 ≤ eps) {cs : List (ι → ℝ)} (he : Exact eps cs) (C : ι → ℝ) :
    ∀ c ∈ cs, dotp c (corrected eps cs C) = 0 := by
  intro c hc
  obtain ⟨p, hp, h⟩ := gramSchmidt_origin eps cs c hc
  have h1 := corrected_used h0 cs C h
  rw [dotp_sub] at h1
  have h2 : dotp (corrected eps cs C) p.1 = 0 := by
    by_cases hpe : p.2 > eps
    · exact corrected_used h0 cs C (Submodule.subset_span ⟨p, hp, hpe, rfl⟩)
    · have h3 := he p hp (not_lt.1 hpe)
      rw [(gramSchmidt_good h0 cs).square p hp] at h3
      rw [dotp_self_eq_zero h3.le, dotp_zero]
  rw [dotp_comm]
  linarith

/-- The nearest vector is unique. -/
theorem corrected_unique {eps : ℝ} (h0 : 0 ≤ eps) (cs : List (ι → ℝ)) (C X : ι → ℝ) (hX : ∀ c ∈ cs, dotp c X = 0)
    (hn : dotp (X - C) (X - C) ≤ dotp (corrected eps cs C - C) (corrected eps cs C - C)) : X = corrected eps cs C := by
  have h1 : dotp (corrected eps cs C) (C - corrected eps cs C) = 0 :=
    corrected_used h0 cs C (by rw [corrected_eq]; exact gsInner_span eps _ C)
  have h2 : dotp X (C - corrected eps cs C) = 0 :=
    dotp_span (fun u hu => by rw [dotp_comm]; exact hX u hu) (corrected_span eps cs C)
  generalize corrected eps cs C = C' at *
  have e : X - C = (X - C') + (C' - C) := by abel
  have h3 : dotp (X - C') (C' - C) = 0 := by
    rw [dotp_sub] at h1 h2 ⊢
    rw [dotp_comm (X - C') C', dotp_comm (X - C') C, dotp_sub, dotp_sub, dotp_comm C' X, dotp_comm C X,
      dotp_comm C C']
    linarith
  rw [e, dotp_add, dotp_comm (X - C' + (C' - C)), dotp_comm (X - C' + (C' - C)), dotp_add, dotp_add,
    dotp_comm (C' - C) (X - C'), h3] at hn
  have : X - C' = 0 := dotp_self_eq_zero (by linarith)
  exact sub_eq_zero.1 this

end Unique

/-- C172: `sum_rule_correction` commutes with each symmetry operation under which the list of lattice vectors is closed,
for force constants of any kind, if the threshold removes redundant constraints only (e.g., if it is zero). If only the
rotation sum rule is enforced, the operation must not contain a translation. -/
theorem C172_correction_partial (asr rsr : Bool) {eps : ℝ} (heps : 0 ≤ eps) (Rint : Fin nR → V3) (R : Fin nR → Fin 3 → ℝ)
    (hL : IsLattice Rint R) (r : Fin nat → Fin 3 → ℝ) (divideMass : Bool) (M : Fin nat → ℝ) (hM : ∀ a, 0 < M a)
    (hexact : Exact eps ((constraints asr rsr R r).map (symmetrizeConstraint (minusR Rint)))) (g : CrystalOp R r)
    (ho : rsr = true → asr = true ∨ ∀ k x, r (g.π k) x = ∑ y, g.O x y * r k y) (data data' : Index nR nat → ℝ)
    (h : g.Image (forceConstants divideMass M data) (forceConstants divideMass M data')) :
    g.Image (forceConstants divideMass M (sumRuleCorrection asr rsr eps Rint R r divideMass M data))
      (forceConstants divideMass M (sumRuleCorrection asr rsr eps Rint R r divideMass M data')) := by
  rw [forceConstants_correction asr rsr eps Rint R r divideMass M hM, forceConstants_correction asr rsr eps Rint R r divideMass M hM]
  generalize forceConstants divideMass M data = C at *
  generalize forceConstants divideMass M data' = C' at *
  have hW := orthogonal_iff asr rsr hL.symm R r
  generalize (constraints asr rsr R r).map (symmetrizeConstraint (minusR Rint)) = cs at *
  have hP := fun C => (hW _).1 (corrected_orth heps hexact C)
  have key : g.act (corrected eps cs C) = corrected eps cs C' := by
    have hi := g.image_act (corrected eps cs C)
    apply corrected_unique heps
    · rw [hW]
      exact (hi.add (hi.swap hL)).rules ho (hP C)
    · have hj := g.inv.image_act (corrected eps cs C')
      have ho' : rsr = true → asr = true ∨ ∀ k x, r (g.inv.π k) x = ∑ y, g.inv.O x y * r k y := by
        intro hr
        refine (ho hr).imp id fun hd k x => ?_
        show r (g.π.symm k) x = ∑ y, g.O y x * r k y
        obtain ⟨l, rfl⟩ := g.π.surjective k
        rw [Equiv.symm_apply_apply]
        simp only [hd, Finset.mul_sum]
        rw [Finset.sum_comm]
        simp only [← mul_assoc, ← Finset.sum_mul, g.orth]
        simp
      have hn := corrected_nearest cs heps C (g.inv.act (corrected eps cs C'))
        ((hW _).2 ((hj.add (hj.swap hL)).rules ho' (hP C')))
      have e1 := (hi.sub h).sq
      have e2 := (hj.sub h.inv).sq
      simp only [pow_two] at e1 e2
      unfold dotp at hn ⊢
      rw [e1, ← e2]
      exact hn
  rw [← key]
  exact g.image_act _

/-- C172: `sum_rule_correction` preserves the symmetries of the force constants. -/
theorem C172_invariant_partial (asr rsr : Bool) {eps : ℝ} (heps : 0 ≤ eps) (Rint : Fin nR → V3) (R : Fin nR → Fin 3 → ℝ)
    (hL : IsLattice Rint R) (r : Fin nat → Fin 3 → ℝ) (divideMass : Bool) (M : Fin nat → ℝ) (hM : ∀ a, 0 < M a)
    (hexact : Exact eps ((constraints asr rsr R r).map (symmetrizeConstraint (minusR Rint)))) (g : CrystalOp R r)
    (hMg : ∀ a, M (g.π a) = M a) (ho : rsr = true → asr = true ∨ ∀ k x, r (g.π k) x = ∑ y, g.O x y * r k y)
    (data : Index nR nat → ℝ) (h : g.Image data data) :
    g.Image (sumRuleCorrection asr rsr eps Rint R r divideMass M data)
      (sumRuleCorrection asr rsr eps Rint R r divideMass M data) := by
  have e : ∀ X : Index nR nat → ℝ, g.Image X X ↔ g.Image (forceConstants divideMass M X) (forceConstants divideMass M X) := by
    intro X
    cases divideMass
    · have : forceConstants false M X = X := by
        funext i
        simp [forceConstants]
      rw [this]
    · constructor
      · intro hX n k l x y
        simp only [forceConstants, if_true, hMg, hX n k l x y, Finset.sum_mul, mul_assoc]
      · intro hX n k l x y
        have := hX n k l x y
        simp only [forceConstants, if_true, hMg, ← mul_assoc] at this
        simp only [← Finset.sum_mul] at this
        exact mul_right_cancel₀ (Real.sqrt_pos.2 (hM k)).ne' (mul_right_cancel₀ (Real.sqrt_pos.2 (hM l)).ne' this)
  rw [e]
  exact C172_correction_partial asr rsr heps Rint R hL r divideMass M hM hexact g ho data data ((e data).1 h)

end Verif.Phon
