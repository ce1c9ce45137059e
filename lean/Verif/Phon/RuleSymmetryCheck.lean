import Verif.Phon.RuleSymmetry
import Verif.Phon.SumRules

/-!
# Sum-rule corrections and symmetries of the crystal: simple correction, examples and violations (C172)
-/

namespace Verif.Phon

open Verif.Voronoi (V3 mesh3 IsMesh mem_mesh3 nodup_mesh3)
open Verif.Fourier (bloch shortRange)

/-! ### Simple correction -/

/-- A symmetry operation of the crystal with periodic boundary conditions: the bond from atom `k` to atom `l` with
lattice vector `m` is mapped to the one with lattice vector `shift k l m`, the bond from an atom to itself to such a bond. -/
structure PeriodicOp (n n1 n2 n3 : Nat) where
  π : Equiv.Perm (Fin n)
  O : Fin 3 → Fin 3 → ℝ
  shift : Fin n → Fin n → Equiv.Perm V3
  mesh : ∀ k l m, IsMesh n1 n2 n3 m ↔ IsMesh n1 n2 n3 (shift k l m)
  self : ∀ k, shift k k (0, 0, 0) = (0, 0, 0)

/-- `C'` are the force constants `C` after the operation. -/
def PeriodicOp.Image {n n1 n2 n3 : Nat} (g : PeriodicOp n n1 n2 n3) (C C' : Phid n) : Prop :=
  ∀ k l m, IsMesh n1 n2 n3 m → ∀ x y, C' (g.π k) (g.π l) (g.shift k l m) x y =
    ∑ x', ∑ y', ((g.O x x' * g.O y y' : ℝ) : ℂ) * C k l m x' y'

theorem asrSum_eq {n : Nat} (n1 n2 n3 : Nat) (phid : Phid n) (a : Fin n) (x y : Fin 3) :
    asrSum n1 n2 n3 phid a x y = ∑ b, ∑ m ∈ (mesh3 n1 n2 n3).toFinset, if a = b ∧ m = (0, 0, 0) then 0 else phid a b m x y := by
  unfold asrSum
  rw [Verif.Fourier.sum_flatMap', finRange_sum]
  refine Finset.sum_congr rfl fun b _ => ?_
  rw [sum_filter_map, ← List.sum_toFinset _ (nodup_mesh3 n1 n2 n3)]
  refine Finset.sum_congr rfl fun m _ => ?_
  by_cases h1 : a = b
  · by_cases h2 : m = (0, 0, 0)
    · subst h1 h2
      simp
    · have : m.1 ≠ 0 ∨ m.2.1 ≠ 0 ∨ m.2.2 ≠ 0 := by
        by_contra h
        push Not at h
        exact h2 (Prod.ext h.1 (Prod.ext h.2.1 h.2.2))
      rw [if_pos (by rw [decide_eq_true_eq]; exact Or.inr this), if_neg fun h => h2 h.2]
  · rw [if_pos (by rw [decide_eq_true_eq]; exact Or.inl h1), if_neg fun h => h1 h.1]

/-- C172: the simple correction commutes with all symmetry operations. -/
theorem C172_simple {n n1 n2 n3 : Nat} (g : PeriodicOp n n1 n2 n3) (phid phid' : Phid n) (h : g.Image phid phid') :
    g.Image (asr n1 n2 n3 phid) (asr n1 n2 n3 phid') := by
  intro k l m hm x y
  have hiff : ∀ k l m, (g.π k = g.π l ∧ g.shift k l m = (0, 0, 0)) ↔ (k = l ∧ m = (0, 0, 0)) := by
    intro k l m
    constructor
    · rintro ⟨h1, h2⟩
      have h1 := g.π.injective h1
      subst h1
      exact ⟨rfl, (g.shift k k).injective (h2.trans (g.self k).symm)⟩
    · rintro ⟨rfl, rfl⟩
      exact ⟨rfl, g.self k⟩
  simp only [asr_eq, hiff]
  split
  · rw [asrSum_eq, ← Equiv.sum_comp g.π]
    have e : ∀ l, ∑ m ∈ (mesh3 n1 n2 n3).toFinset, (if g.π k = g.π l ∧ m = (0, 0, 0) then 0 else phid' (g.π k) (g.π l) m x y) =
        ∑ m ∈ (mesh3 n1 n2 n3).toFinset, ∑ x', ∑ y', ((g.O x x' * g.O y y' : ℝ) : ℂ) *
          if k = l ∧ m = (0, 0, 0) then 0 else phid k l m x' y' := by
      intro l
      symm
      refine Finset.sum_bij' (fun m _ => g.shift k l m) (fun m _ => (g.shift k l).symm m) ?_ ?_ ?_ ?_ ?_
      · intro m hm
        rw [List.mem_toFinset, mem_mesh3] at hm ⊢
        exact (g.mesh k l m).1 hm
      · intro m hm
        rw [List.mem_toFinset, mem_mesh3] at hm ⊢
        exact (g.mesh k l _).2 (by rwa [Equiv.apply_symm_apply])
      · simp
      · simp
      · intro m hm
        simp only [hiff]
        split
        · simp
        · rw [h k l m (by simpa [mem_mesh3] using hm)]
    simp only [e, asrSum_eq, Finset.mul_sum, mul_neg, Finset.sum_neg_distrib, neg_inj]
    have e2 : ∀ l, ∑ m ∈ (mesh3 n1 n2 n3).toFinset, ∑ x', ∑ y', ((g.O x x' * g.O y y' : ℝ) : ℂ) *
          (if k = l ∧ m = (0, 0, 0) then 0 else phid k l m x' y') =
        ∑ x', ∑ y', ∑ m ∈ (mesh3 n1 n2 n3).toFinset, ((g.O x x' * g.O y y' : ℝ) : ℂ) *
          (if k = l ∧ m = (0, 0, 0) then 0 else phid k l m x' y') := by
      intro l
      rw [Finset.sum_comm]
      exact Finset.sum_congr rfl fun _ _ => Finset.sum_comm
    simp only [e2]
    rw [Finset.sum_comm]
    exact Finset.sum_congr rfl fun _ _ => Finset.sum_comm
  · exact h k l m hm x y

/-- Mirror plane that exchanges the two atoms in the unit cell of a chain. -/
def chainMirror : PeriodicOp 2 3 1 1 where
  π := Equiv.swap 0 1
  O := fun x y => if x = y then (if x = 0 then -1 else 1) else 0
  shift := fun _ _ => ⟨fun m => if m.1 = 1 then (2, m.2) else if m.1 = 2 then (1, m.2) else m,
    fun m => if m.1 = 1 then (2, m.2) else if m.1 = 2 then (1, m.2) else m, by
      rintro ⟨a, b⟩; by_cases h1 : a = 1 <;> by_cases h2 : a = 2 <;> simp_all, by
      rintro ⟨a, b⟩; by_cases h1 : a = 1 <;> by_cases h2 : a = 2 <;> simp_all⟩
  mesh := by
    intro k l m
    obtain ⟨a, b, c⟩ := m
    show IsMesh 3 1 1 (a, b, c) ↔ IsMesh 3 1 1 (if a = 1 then (2, b, c) else if a = 2 then (1, b, c) else (a, b, c))
    unfold IsMesh
    split
    · simp_all
    · split
      · simp_all
      · rfl
  self := by
    intro k
    rfl

example : chainMirror.Image (fun a b m x y => if x = y then (if a = b then 1 else if m = (0, 0, 0) then -3 else -1) else 0)
    (fun a b m x y => if x = y then (if a = b then 1 else if m = (0, 0, 0) then -3 else -1) else 0) := by
  intro k l m hm x y
  have e : ∀ k l, chainMirror.shift k l m = if m.1 = 1 then (2, m.2) else if m.1 = 2 then (1, m.2) else m := by
    intro k l
    rfl
  have e0 : chainMirror.shift k l m = (0, 0, 0) ↔ m = (0, 0, 0) := by
    rw [e]
    obtain ⟨a, b, c⟩ := m
    by_cases h1 : a = 1
    · simp [h1]
    · by_cases h2 : a = 2
      · simp [h2]
      · simp [h1, h2]
  simp only [e0, chainMirror.π.injective.eq_iff]
  fin_cases x <;> fin_cases y <;> simp [chainMirror, Fin.sum_univ_three]

/-- C172: if the sum of the force constants between an atom and all others is a symmetric matrix, the forces between
atoms still do not depend on their order after the simple correction. -/
theorem C172_simple_reciprocal_partial {n : Nat} (n1 n2 n3 : Nat) (phid : Phid n) (minus : V3 → V3)
    (h0 : ∀ m, minus m = (0, 0, 0) ↔ m = (0, 0, 0)) (h : ∀ a b m x y, phid b a (minus m) y x = phid a b m x y)
    (hs : ∀ a x y, ∑ b, ((mesh3 n1 n2 n3).filter fun m => ¬ (a = b ∧ m = (0, 0, 0))).toFinset.sum (fun m => phid a b m x y) =
      ∑ b, ((mesh3 n1 n2 n3).filter fun m => ¬ (a = b ∧ m = (0, 0, 0))).toFinset.sum fun m => phid a b m y x)
    (a b : Fin n) (m : V3) (x y : Fin 3) :
    asr n1 n2 n3 phid b a (minus m) y x = asr n1 n2 n3 phid a b m x y := by
  have e : ∀ a x y, asrSum n1 n2 n3 phid a x y =
      ∑ b, ((mesh3 n1 n2 n3).filter fun m => ¬ (a = b ∧ m = (0, 0, 0))).toFinset.sum (fun m => phid a b m x y) := by
    intro a x y
    rw [asrSum_eq]
    refine Finset.sum_congr rfl fun b _ => ?_
    rw [List.toFinset_filter, Finset.sum_filter]
    refine Finset.sum_congr rfl fun m _ => ?_
    by_cases hb : a = b ∧ m = (0, 0, 0)
    · rw [if_pos hb, if_neg (by rw [decide_eq_true_eq]; exact not_not.2 hb)]
    · rw [if_neg hb, if_pos (by rw [decide_eq_true_eq]; exact hb)]
  rw [asr_eq, asr_eq]
  by_cases hb : a = b ∧ m = (0, 0, 0)
  · rw [if_pos ⟨hb.1.symm, (h0 m).2 hb.2⟩, if_pos hb, ← hb.1, e, e, hs]
  · rw [if_neg fun hc => hb ⟨hc.1.symm, (h0 m).1 hc.2⟩, if_neg hb, h]

example : asr 1 1 1 (fun (a b : Fin 2) _ x y => if a = b then 5 else if x = y then -(x : ℂ) else -1) 0 0 (0, 0, 0) 1 2 =
    asr 1 1 1 (fun (a b : Fin 2) _ x y => if a = b then 5 else if x = y then -(x : ℂ) else -1) 0 0 (0, 0, 0) 2 1 :=
  C172_simple_reciprocal_partial 1 1 1 _ id (fun _ => Iff.rfl) (by
    intro a b m x y
    simp only [eq_comm (a := b), eq_comm (a := y)]
    split
    · rfl
    · split
      · rename_i h; rw [h]
      · rfl) (by
    intro a x y
    refine Finset.sum_congr rfl fun b _ => Finset.sum_congr rfl fun m _ => ?_
    split
    · rfl
    · simp only [eq_comm (a := y)]
      split
      · rename_i h; rw [h]
      · rfl) 0 0 (0, 0, 0) 2 1

/-- Two atoms whose relative displacement in `y` direction causes a force in `x` direction. -/
def obliquePair : Phid 2 := fun a b _ x y =>
  if a = 0 ∧ b = 1 then (if x = 0 ∧ y = 1 then 1 else 0) else if a = 1 ∧ b = 0 then (if x = 1 ∧ y = 0 then 1 else 0) else 0

/-- C172: the simple correction may turn a Hermitian dynamical matrix into one that is not. -/
theorem C172_simple_hermitian_violated : (∀ a b m x y, obliquePair b a m y x = star (obliquePair a b m x y)) ∧
    ∀ (size : Nat), 0 < size → ∀ (at' : Fin 3 → Fin 3 → ℝ) (tau : Fin 2 → Fin 3 → ℝ),
      ∃ l l', shortRange size 1 1 1 at' tau (-1) true obliquePair = some l ∧
        (∀ i j, bloch l (fun _ => 0) j i = star (bloch l (fun _ => 0) i j)) ∧
        shortRange size 1 1 1 at' tau (-1) true (asr 1 1 1 obliquePair) = some l' ∧
        ¬ ∀ i j, bloch l' (fun _ => 0) j i = star (bloch l' (fun _ => 0) i j) := by
  have hsym : ∀ a b m x y, obliquePair b a m y x = star (obliquePair a b m x y) := by
    intro a b m x y
    unfold obliquePair
    fin_cases a <;> fin_cases b <;> fin_cases x <;> fin_cases y <;> simp
  refine ⟨hsym, fun size hsize at' tau => ?_⟩
  have h0 : Verif.Fourier.meshK 1 1 1 (0, 0, 0) = fun _ => 0 := by
    funext x
    fin_cases x <;> simp [Verif.Fourier.meshK]
  have hm : mesh3 1 1 1 = [(0, 0, 0)] := by decide
  have key : ∀ phid : Phid 2, ∃ l, shortRange size 1 1 1 at' tau (-1) true phid = some l ∧
      ∀ i j, bloch l (fun _ => 0) i j = phid i.1 j.1 (0, 0, 0) i.2 j.2 := by
    intro phid
    obtain ⟨l, hl, hb⟩ := Verif.Fourier.shortRange_bloch (c := 3) size hsize 1 1 1 one_pos one_pos one_pos at' tau (-1) (Or.inr rfl) phid
    refine ⟨l, hl, fun i j => ?_⟩
    rw [← h0, ← Prod.mk.eta (p := i), ← Prod.mk.eta (p := j), hb, hm]
    simp [Verif.Fourier.om3, Verif.Fourier.om_zero]
  obtain ⟨l, hl, hb⟩ := key obliquePair
  obtain ⟨l', hl', hb'⟩ := key (asr 1 1 1 obliquePair)
  refine ⟨l, l', hl, ?_, hl', ?_⟩
  · intro i j
    rw [hb, hb]
    exact hsym _ _ _ _ _
  · intro h
    have h := h (0, 0) (0, 1)
    rw [hb', hb', asr_eq, asr_eq, if_pos ⟨rfl, rfl⟩, if_pos ⟨rfl, rfl⟩, asrSum_eq, asrSum_eq, hm] at h
    simp [obliquePair] at h

/-! ### Minimal correction -/

/-- Chain of dimers. -/
noncomputable def dimerR (n : Fin 3) : Fin 3 → ℝ := ![((chainR n).1 : ℝ), 0, 0]

/-- Positions of the atoms. -/
noncomputable def dimerr (k : Fin 2) : Fin 3 → ℝ := ![if k = 0 then -1 / 5 else 1 / 5, 0, 0]

theorem dimer_lattice : IsLattice chainR dimerR := by
  refine ⟨chainR_symmetric, ?_, ?_⟩
  · intro n m h x
    have h := congrArg Prod.fst h
    unfold dimerR
    fin_cases x
    · simp [h]
    · simp
    · simp
  · intro n m h
    apply chainR_symmetric.distinct
    have h := congrFun h 0
    simp only [dimerR, Matrix.cons_val_zero, Int.cast_inj] at h
    have e : ∀ n m : Fin 3, (chainR n).1 = (chainR m).1 → chainR n = chainR m := by decide
    exact e n m h

/-- Inversion at the center of a dimer. -/
noncomputable def dimerInversion : CrystalOp dimerR dimerr where
  π := Equiv.swap 0 1
  O := fun x y => if x = y then -1 else 0
  shift := fun _ _ => Equiv.swap 1 2
  orth := by
    intro x y
    fin_cases x <;> fin_cases y <;> simp [Fin.sum_univ_three]
  bonds := by
    intro k l n x
    fin_cases k <;> fin_cases l <;> fin_cases n <;> fin_cases x <;>
      simp [dimerR, dimerr, chainR, Fin.sum_univ_three, Equiv.swap_apply_def] <;> norm_num

/-- Force constants of dimers that violate the sum rule. -/
def dimerC (i : Index 3 2) : ℝ := if i.2.1.2 = i.2.2.2 then
  (if i.2.1.1 = i.2.2.1 then (if i.1 = 0 then 4 else 0) else if i.1 = 0 then -2 else 0) else 0

example : dimerInversion.Image (sumRuleCorrection true true 0 chainR dimerR dimerr true (fun _ => 2) dimerC)
    (sumRuleCorrection true true 0 chainR dimerR dimerr true (fun _ => 2) dimerC) := by
  refine C172_invariant_partial true true le_rfl chainR dimerR dimer_lattice dimerr true (fun _ => 2) (fun _ => two_pos)
    (exact_zero _) dimerInversion (fun _ => rfl) (fun _ => Or.inl rfl) dimerC ?_
  intro n k l x y
  have e : (Equiv.swap (1 : Fin 3) 2) n = 0 ↔ n = 0 := by revert n; decide
  have e2 : (Equiv.swap (0 : Fin 2) 1) k = (Equiv.swap (0 : Fin 2) 1) l ↔ k = l := (Equiv.swap 0 1).injective.eq_iff
  show dimerC ((Equiv.swap 1 2) n, ((Equiv.swap 0 1) k, x), ((Equiv.swap 0 1) l, y)) = _
  simp only [dimerC, e, e2]
  fin_cases x <;> fin_cases y <;> simp [dimerInversion, Fin.sum_univ_three]

/-- Lattice vectors of a chain, up to second neighbors. -/
def wideR : Fin 5 → V3 := ![(0, 0, 0), (1, 0, 0), (-1, 0, 0), (2, 0, 0), (-2, 0, 0)]

/-- Force constants of a chain with two equal atoms per unit cell at 0 and 1/2, whose sum is not zero. -/
def wideC (i : Index 5 2) : ℝ := if i.2.1.2 = 0 ∧ i.2.2.2 = 0 then
  (if i.2.1.1 = i.2.2.1 then (if i.1 = 0 then 3 else 0) else if i.2.1.1 = 0 then (if i.1 = 0 ∨ i.1 = 2 then -1 else 0)
    else if i.1 = 0 ∨ i.1 = 1 then -1 else 0) else 0

/-- Force constants for any lattice vector. -/
noncomputable def anyBond (C : Index 5 2 → ℝ) (R : V3) (i j : Fin 2 × Fin 3) : ℝ := ∑ n, if wideR n = R then C (n, i, j) else 0

/-- Inversion at the first atom: the second one, at 1/2, is mapped to -1/2, which belongs to the previous unit cell. -/
def Inverted (C : Index 5 2 → ℝ) : Prop := ∀ (R : Int) (k l : Fin 2) (x y : Fin 3),
  anyBond C (-R + (k : Nat) - (l : Nat), 0, 0) (k, x) (l, y) = anyBond C (R, 0, 0) (k, x) (l, y)

theorem span_form (R : Fin nR → Fin 3 → ℝ) (r : Fin nat → Fin 3 → ℝ) (Rint : Fin nR → V3) (v : Index nR nat → ℝ)
    (hv : v ∈ Submodule.span ℝ {u | u ∈ (constraints true false R r).map (symmetrizeConstraint (minusR Rint))}) :
    ∃ α : Fin nat → Fin 3 → Fin 3 → ℝ, ∀ n k x l y, v (n, (k, x), (l, y)) = α k x y + α l y x := by
  induction hv using Submodule.span_induction with
  | mem c hc' =>
    obtain ⟨d, hc, rfl⟩ := List.mem_map.1 hc'
    simp only [constraints, if_true, Bool.false_eq_true, if_false, List.append_nil, List.mem_flatMap, List.mem_map] at hc
    obtain ⟨k0, _, x0, _, y0, _, rfl⟩ := hc
    refine ⟨fun k x y => if (k, x) = (k0, x0) ∧ y = y0 then 1 else 0, fun n k x l y => ?_⟩
    rfl
  | zero => exact ⟨fun _ _ _ => 0, by simp⟩
  | add u w _ _ hu hw =>
    obtain ⟨α, ha⟩ := hu
    obtain ⟨β, hb⟩ := hw
    exact ⟨fun k x y => α k x y + β k x y, fun n k x l y => by simp only [Pi.add_apply, ha, hb]; ring⟩
  | smul t u _ hu =>
    obtain ⟨α, ha⟩ := hu
    exact ⟨fun k x y => t * α k x y, fun n k x l y => by simp only [Pi.smul_apply, smul_eq_mul, ha]; ring⟩

/-- C172: if the list of lattice vectors is not closed under a symmetry operation, the correction breaks the symmetry, as
the warning in the code says: here the inversion symmetry of a chain. -/
theorem C172_correction_violated {eps : ℝ} (heps : 0 ≤ eps) (R : Fin 5 → Fin 3 → ℝ) (r : Fin 2 → Fin 3 → ℝ)
    (hexact : Exact eps ((constraints true false R r).map (symmetrizeConstraint (minusR wideR)))) :
    Inverted wideC ∧ ¬ Inverted (sumRuleCorrection true false eps wideR R r false (fun _ => 1) wideC) := by
  have hsym : Symmetric wideR := ⟨by decide, by decide⟩
  have hval : ∀ (C : Index 5 2 → ℝ) (a : Int) (i j), anyBond C (a, 0, 0) i j =
      if a = 0 then C (0, i, j) else if a = 1 then C (1, i, j) else if a = -1 then C (2, i, j) else if a = 2 then C (3, i, j)
        else if a = -2 then C (4, i, j) else 0 := by
    intro C a i j
    unfold anyBond wideR
    simp only [Fin.sum_univ_five, Matrix.cons_val, Prod.mk.injEq, and_true]
    by_cases h0 : a = 0
    · subst h0; simp
    · by_cases h1 : a = 1
      · subst h1; simp
      · by_cases h2 : a = -1
        · subst h2; simp
        · by_cases h3 : a = 2
          · subst h3; simp
          · by_cases h4 : a = -2
            · subst h4; simp
            · simp [h0, h1, h2, h3, h4, eq_comm (b := a)]
  constructor
  · intro a k l x y
    rw [hval, hval]
    unfold wideC
    fin_cases k <;> fin_cases l
    all_goals simp only [Fin.zero_eta, Fin.mk_one, Fin.isValue, Fin.val_zero, Fin.val_one, Nat.cast_zero, Nat.cast_one]
    all_goals by_cases hxy : x = 0 ∧ y = 0
    all_goals simp only [hxy, and_self, if_true, if_false, ite_self]
    all_goals simp
    all_goals try (split_ifs <;> first | rfl | omega)
  · intro h
    have h2 := h 2 0 1 0 0
    rw [hval, hval] at h2
    simp only [Fin.val_zero, Fin.val_one, Nat.cast_zero, Nat.cast_one] at h2
    norm_num at h2
    have hf := forceConstants_correction true false eps wideR R r false (fun _ => 1) (fun _ => one_pos) wideC
    have hid : ∀ X : Index 5 2 → ℝ, forceConstants false (fun _ => 1) X = X := by
      intro X
      funext i
      simp [forceConstants]
    rw [hid, hid] at hf
    rw [hf] at h2
    have hs := (orthogonal_iff true false hsym R r _).1 (corrected_orth heps hexact wideC)
    obtain ⟨α, ha⟩ := span_form R r wideR _ (corrected_span eps
      ((constraints true false R r).map (symmetrizeConstraint (minusR wideR))) wideC)
    generalize corrected eps ((constraints true false R r).map (symmetrizeConstraint (minusR wideR))) wideC = C' at *
    have hC' : ∀ n k x l y, C' (n, (k, x), (l, y)) = wideC (n, (k, x), (l, y)) - (α k x y + α l y x) := by
      intro n k x l y
      rw [← ha n k x l y, Pi.sub_apply]
      ring
    have hm : minusR wideR = ![0, 2, 1, 4, 3] := by
      funext n
      revert n
      decide
    have s0 := hs.acoustic rfl 0 0 0
    have s1 := hs.acoustic rfl 1 0 0
    simp only [Pi.add_apply, swap, hm, hC', Fin.sum_univ_five, Fin.sum_univ_two] at s0 s1
    rw [hC'] at h2
    simp [wideC] at s0 s1 h2
    linarith

example := C172_correction_violated le_rfl (fun n => ![((wideR n).1 : ℝ), 0, 0]) (fun k => ![if k = 0 then 0 else 1 / 2, 0, 0])
  (exact_zero _)

end Verif.Phon
