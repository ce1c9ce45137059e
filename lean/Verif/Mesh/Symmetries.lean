import Verif.Mesh.CompleteK
import Mathlib.Algebra.BigOperators.Group.Finset.Basic
import Mathlib.Algebra.Order.BigOperators.Group.Finset
import Mathlib.Data.Finset.Card
import Mathlib.Data.Set.Function
import Mathlib.Algebra.Order.Group.Unbundled.Abs

/-!
# Property C177: `symmetries` of `elphmod/bravais.py` finds the symmetries of data on a mesh
-/

namespace Verif.Mesh

variable {K : Type} [AddCommGroup K] [LinearOrder K] [IsOrderedAddMonoid K]

/-- `elphmod/bravais.py` 606: negation of `abs(data[k1, k2] - data[K1, K2]) > epsilon`; comparisons that involve NaN (`none`) are false. -/
def tolerated (eps : K) (a b : Option K) : Bool :=
  match a, b with
  | some a, some b => !decide (|a - b| > eps)
  | _, _ => true

/-- `elphmod/bravais.py` 585-613 (`get_image`). -/
def getImage (angle : Angle) (nk : Nat) (eps : K) (data : P → Option K) (reflect : Bool) (n : Nat) : Option (P → P) :=
  let image := symMap angle nk reflect n
  if (meshPoints nk).all fun k => tolerated eps (data k) (data (image k)) then some image else none

/-- `elphmod/bravais.py` 554-625 (`symmetries`). Rotation angles are given as multiples of `dangle`. -/
def symmetries (angle : Angle) (nk : Nat) (eps : K) (unity : Bool) (data : P → Option K) : List ((Bool × Nat) × (P → P)) :=
  [false, true].flatMap fun reflect => (List.range (nrot angle)).filterMap fun n =>
    if reflect || n != 0 || unity then (getImage angle nk eps data reflect n).map fun image => ((reflect, n), image) else none

/-! ## Specification -/

/-- Data have the symmetry described by an isometry of the lattice, up to some tolerance. -/
def Has (nk : Nat) (eps : K) (f : P → K) (A : Lin) : Prop := ∀ k, OnMesh nk k → |f k - f (red nk (A.act k))| ≤ eps

/-- An array of indices represents an isometry of the lattice. -/
def Represents (nk : Nat) (image : P → P) (A : Lin) : Prop := ∀ k, OnMesh nk k → image k = red nk (A.act k)

/-! ## Lemmas -/

/-- Linear map tested. -/
def lin (angle : Angle) (reflect : Bool) (n : Nat) : Lin := if reflect then (reflL angle).mul (rotPow angle n) else rotPow angle n

theorem symMap_lin (angle : Angle) (nk : Int) (reflect : Bool) (n : Nat) (k : P) :
    symMap angle nk reflect n k = red nk ((lin angle reflect n).act k) := by
  cases reflect
  · simp [symMap, lin, act_rotPow]
  · simp [symMap, lin, Lin.act_mul, act_rotPow, act_reflL]

theorem isometry_lin (angle : Angle) (reflect : Bool) (n : Nat) : (lin angle reflect n).Isometry angle := by
  cases reflect
  · exact isometry_rotPow angle n
  · exact isometry_mul (isometry_reflL angle) (isometry_rotPow angle n)

theorem lin_of_isometry (angle : Angle) (A : Lin) (hA : A.Isometry angle) : ∃ r, ∃ n < nrot angle, A = lin angle r n := by
  obtain ⟨n, hn, rfl | rfl⟩ := isometry_cases angle A hA
  · exact ⟨false, n, hn, rfl⟩
  · refine ⟨true, ?_⟩
    cases angle
    all_goals
      simp only [nrot] at hn ⊢
      interval_cases n
    all_goals decide

theorem lin_injective (angle : Angle) (r r' : Bool) (n n' : Nat) (hn : n < nrot angle) (hn' : n' < nrot angle)
    (h : lin angle r n = lin angle r' n') : r = r' ∧ n = n' := by
  have key : ∀ r r' : Bool, ∀ n < nrot angle, ∀ n' < nrot angle, lin angle r n = lin angle r' n' → r = r' ∧ n = n' := by
    cases angle <;> decide
  exact key r r' n hn n' hn' h

theorem act_ext {A B : Lin} (h : ∀ k, A.act k = B.act k) : A = B := by
  obtain ⟨a, b, c, d⟩ := A
  obtain ⟨a', b', c', d'⟩ := B
  have h1 := h (1, 0)
  have h2 := h (0, 1)
  simp only [Lin.act, Prod.mk.injEq, mul_one, mul_zero, add_zero, zero_add] at h1 h2
  simp only [Lin.mk.injEq]
  exact ⟨h1.1, h2.1, h1.2, h2.2⟩

theorem onMesh_iff (nk : Nat) (k : P) : OnMesh nk k ↔ k ∈ meshPoints nk := (mem_meshPoints nk k).symm

omit [IsOrderedAddMonoid K] in
theorem mem_symmetries (angle : Angle) (nk : Nat) (eps : K) (unity : Bool) (data : P → Option K) (s : (Bool × Nat) × (P → P)) :
    s ∈ symmetries angle nk eps unity data ↔ s.1.2 < nrot angle ∧ (s.1.1 || s.1.2 != 0 || unity) = true ∧ s.2 = symMap angle nk s.1.1 s.1.2 ∧
      ∀ k, OnMesh nk k → tolerated eps (data k) (data (s.2 k)) = true := by
  obtain ⟨⟨r, n⟩, im⟩ := s
  simp only [symmetries, List.mem_flatMap, List.mem_filterMap, List.mem_range, getImage]
  constructor
  · rintro ⟨r', _, n', hn', h⟩
    split_ifs at h with h1 h2
    · simp only [Option.map_some, Option.some.injEq, Prod.mk.injEq] at h
      obtain ⟨⟨rfl, rfl⟩, rfl⟩ := h
      refine ⟨hn', h1, rfl, fun k hk => ?_⟩
      exact List.all_eq_true.1 h2 k ((onMesh_iff nk k).1 hk)
    · simp at h
  · rintro ⟨h1, h2, h3, h4⟩
    change im = symMap angle nk r n at h3
    subst h3
    refine ⟨r, by cases r <;> simp, n, h1, ?_⟩
    rw [if_pos h2, if_pos (List.all_eq_true.2 fun k hk => h4 k ((onMesh_iff nk k).2 hk))]
    rfl

omit [IsOrderedAddMonoid K] in
theorem tolerated_some (eps a b : K) : tolerated eps (some a) (some b) = true ↔ |a - b| ≤ eps := by
  simp [tolerated]

theorem red_onMesh {nk : Nat} {k : P} (hk : OnMesh nk k) (l : P) : OnMesh nk (red nk l) := by
  have h0 : 0 < nk := by
    obtain ⟨h1, h2⟩ := hk
    omega
  exact (onMesh_iff nk _).2 (red_mem h0 l)

/-! ## Properties -/

omit [IsOrderedAddMonoid K] in
/-- **C177**: `symmetries` with `unity=True` finds exactly those length-preserving maps of the lattice that the data have, ... -/
theorem C177_found (angle : Angle) (nk : Nat) (eps : K) (f : P → K) (A : Lin) (hA : A.Isometry angle) :
    Has nk eps f A ↔ ∃ s ∈ symmetries angle nk eps true fun k => some (f k), Represents nk s.2 A := by
  constructor
  · intro h
    obtain ⟨r, n, hn, rfl⟩ := lin_of_isometry angle A hA
    refine ⟨((r, n), symMap angle nk r n), (mem_symmetries ..).2 ⟨hn, by simp, rfl, fun k hk => ?_⟩, fun k _ => symMap_lin ..⟩
    show tolerated eps (some (f k)) (some (f (symMap angle nk r n k))) = true
    rw [tolerated_some, symMap_lin]
    exact h k hk
  · rintro ⟨s, hs, hr⟩ k hk
    obtain ⟨_, _, _, h4⟩ := (mem_symmetries ..).1 hs
    have := h4 k hk
    rwa [tolerated_some, hr k hk] at this

omit [IsOrderedAddMonoid K] in
/-- **C177**: ... and nothing else, ... -/
theorem C177_sound (angle : Angle) (nk : Nat) (eps : K) (unity : Bool) (f : P → K) (s : (Bool × Nat) × (P → P))
    (hs : s ∈ symmetries angle nk eps unity fun k => some (f k)) : ∃ A : Lin, A.Isometry angle ∧ Represents nk s.2 A ∧ Has nk eps f A := by
  obtain ⟨_, _, h3, h4⟩ := (mem_symmetries ..).1 hs
  refine ⟨lin angle s.1.1 s.1.2, isometry_lin _ _ _, fun k _ => by rw [h3, symMap_lin], fun k hk => ?_⟩
  have := h4 k hk
  rwa [tolerated_some, h3, symMap_lin] at this

omit [IsOrderedAddMonoid K] in
/-- **C177**: ... each under one name only, different names standing for different maps. -/
theorem C177_names (angle : Angle) (nk : Nat) (eps : K) (unity : Bool) (data : P → Option K) :
    ((symmetries angle nk eps unity data).map Prod.fst).Nodup ∧
      ∀ r r' n n', n < nrot angle → n' < nrot angle → (∀ k, (lin angle r n).act k = (lin angle r' n').act k) → (r, n) = (r', n') := by
  refine ⟨?_, fun r r' n n' hn hn' h => ?_⟩
  · have hsub : ((symmetries angle nk eps unity data).map Prod.fst).Sublist
        ([false, true].flatMap fun reflect => (List.range (nrot angle)).map fun n => (reflect, n)) := by
      simp only [symmetries, List.flatMap_cons, List.flatMap_nil, List.append_nil, List.map_append]
      have key : ∀ (r : Bool) (l : List Nat), ((l.filterMap fun n => if r || n != 0 || unity then
          (getImage angle nk eps data r n).map fun image => ((r, n), image) else none).map Prod.fst).Sublist (l.map fun n => (r, n)) := by
        intro r l
        induction l with
        | nil => simp
        | cons n l ih =>
          rw [List.filterMap_cons, List.map_cons]
          split
          · exact ih.cons _
          · next b hb =>
            have : b.1 = (r, n) := by
              split_ifs at hb
              rw [Option.map_eq_some_iff] at hb
              obtain ⟨_, _, rfl⟩ := hb
              rfl
            rw [List.map_cons, this]
            exact ih.cons_cons _
      exact (key false _).append (key true _)
    refine hsub.nodup ?_
    cases angle <;> decide
  · obtain ⟨rfl, rfl⟩ := lin_injective angle r r' n n' hn hn' (act_ext h)
    rfl

omit [IsOrderedAddMonoid K] in
/-- **C177**: each result permutes the points of the mesh. -/
theorem C177_permutation (angle : Angle) (nk : Nat) (eps : K) (unity : Bool) (data : P → Option K) (s : (Bool × Nat) × (P → P))
    (hs : s ∈ symmetries angle nk eps unity data) : Set.BijOn s.2 {k | OnMesh nk k} {k | OnMesh nk k} := by
  obtain ⟨_, _, h3, _⟩ := (mem_symmetries ..).1 hs
  have hA := isometry_lin angle s.1.1 s.1.2
  have hs2 : ∀ k, s.2 k = red nk ((lin angle s.1.1 s.1.2).act k) := fun k => by rw [h3, symMap_lin]
  obtain ⟨B, hB, hBA⟩ := isometry_inv angle _ hA
  obtain ⟨C, _, hCB⟩ := isometry_inv angle B hB
  have hAB : ∀ k, (lin angle s.1.1 s.1.2).act (B.act k) = k := by
    intro k
    have h1 := hCB ((lin angle s.1.1 s.1.2).act (B.act k))
    rw [hBA, hCB] at h1
    exact h1.symm
  refine ⟨fun k hk => ?_, fun k hk l hl h => ?_, fun k hk => ⟨red nk (B.act k), ?_, ?_⟩⟩
  · show OnMesh nk (s.2 k)
    rw [hs2]
    exact red_onMesh hk _
  · have h1 : red nk (B.act (s.2 k)) = red nk (B.act (s.2 l)) := by rw [h]
    rwa [hs2, hs2, red_act_red, red_act_red, hBA, hBA, red_of_mem ((onMesh_iff nk k).1 hk), red_of_mem ((onMesh_iff nk l).1 hl)] at h1
  · exact red_onMesh hk _
  · rw [hs2, red_act_red, hAB, red_of_mem ((onMesh_iff nk k).1 hk)]

/-- **C177**: combining two results, the tolerances add up, ... -/
theorem C177_compose (angle : Angle) (nk : Nat) (eps eps' : K) (f : P → K) (s t : (Bool × Nat) × (P → P))
    (hs : s ∈ symmetries angle nk eps true fun k => some (f k)) (ht : t ∈ symmetries angle nk eps' true fun k => some (f k)) :
    ∃ u ∈ symmetries angle nk (eps + eps') true fun k => some (f k), ∀ k, OnMesh nk k → u.2 k = s.2 (t.2 k) := by
  obtain ⟨A, hA, hrA, hfA⟩ := C177_sound angle nk eps true f s hs
  obtain ⟨B, hB, hrB, hfB⟩ := C177_sound angle nk eps' true f t ht
  have hAB : Has nk (eps + eps') f (A.mul B) := by
    intro k hk
    have h1 := hfB k hk
    have h2 := hfA (red nk (B.act k)) (red_onMesh hk _)
    rw [red_act_red, ← Lin.act_mul] at h2
    calc |f k - f (red nk ((A.mul B).act k))| = |(f k - f (red nk (B.act k))) + (f (red nk (B.act k)) - f (red nk ((A.mul B).act k)))| := by
          congr 1
          abel
      _ ≤ _ := abs_add_le _ _
      _ ≤ eps' + eps := add_le_add h1 h2
      _ = eps + eps' := add_comm _ _
  obtain ⟨u, hu, hru⟩ := (C177_found angle nk (eps + eps') f _ (isometry_mul hA hB)).1 hAB
  refine ⟨u, hu, fun k hk => ?_⟩
  rw [hru k hk, hrB k hk, hrA _ (red_onMesh hk _), red_act_red, Lin.act_mul]

/-- **C177**: ... and each result can be undone, ... -/
theorem C177_inverse (angle : Angle) (nk : Nat) (eps : K) (f : P → K) (s : (Bool × Nat) × (P → P))
    (hs : s ∈ symmetries angle nk eps true fun k => some (f k)) :
    ∃ u ∈ symmetries angle nk eps true fun k => some (f k), ∀ k, OnMesh nk k → u.2 (s.2 k) = k := by
  obtain ⟨A, hA, hrA, hfA⟩ := C177_sound angle nk eps true f s hs
  obtain ⟨B, hB, hBA⟩ := isometry_inv angle A hA
  obtain ⟨C, _, hCB⟩ := isometry_inv angle B hB
  have hAB : ∀ k, A.act (B.act k) = k := by
    intro k
    have h1 := hCB (A.act (B.act k))
    rw [hBA, hCB] at h1
    exact h1.symm
  have hB' : Has nk eps f B := by
    intro k hk
    have h1 := hfA (red nk (B.act k)) (red_onMesh hk _)
    rw [red_act_red, hAB, red_of_mem ((onMesh_iff nk k).1 hk), abs_sub_comm] at h1
    exact h1
  obtain ⟨u, hu, hru⟩ := (C177_found angle nk eps f B hB).1 hB'
  refine ⟨u, hu, fun k hk => ?_⟩
  rw [hrA k hk, hru _ (red_onMesh hk _), red_act_red, hBA, red_of_mem ((onMesh_iff nk k).1 hk)]

/-- **C177**: ... so that, without tolerance, the results form a group. -/
theorem C177_group (angle : Angle) (nk : Nat) (f : P → K) (s t : (Bool × Nat) × (P → P))
    (hs : s ∈ symmetries angle nk 0 true fun k => some (f k)) (ht : t ∈ symmetries angle nk 0 true fun k => some (f k)) :
    (∃ u ∈ symmetries angle nk 0 true fun k => some (f k), ∀ k, OnMesh nk k → u.2 k = s.2 (t.2 k)) ∧
    (∃ u ∈ symmetries angle nk 0 true fun k => some (f k), ∀ k, OnMesh nk k → u.2 (s.2 k) = k) ∧
    ∃ u ∈ symmetries angle nk 0 true fun k => some (f k), u.1 = (false, 0) ∧ ∀ k, OnMesh nk k → u.2 k = k := by
  refine ⟨?_, C177_inverse angle nk 0 f s hs, ?_⟩
  · have := C177_compose angle nk 0 0 f s t hs ht
    rwa [add_zero] at this
  · have h1 : ∀ k, OnMesh nk k → symMap angle nk false 0 k = k := fun k hk => by
      rw [show symMap angle nk false 0 k = red nk k from rfl, red_of_mem ((onMesh_iff nk k).1 hk)]
    refine ⟨((false, 0), symMap angle nk false 0), (mem_symmetries ..).2 ⟨nrot_pos angle, rfl, rfl, fun k hk => ?_⟩, rfl, h1⟩
    show tolerated 0 (some (f k)) (some (f (symMap angle nk false 0 k))) = true
    rw [h1 k hk, tolerated_some, sub_self, abs_zero]

/-- **C177**: `unity=False` leaves out the identity, and nothing else. -/
theorem C177_unity (angle : Angle) (nk : Nat) (eps : K) (heps : 0 ≤ eps) (data : P → Option K) :
    symmetries angle nk eps true data = ((false, 0), symMap angle nk false 0) :: symmetries angle nk eps false data := by
  have h1 : getImage angle nk eps data false 0 = some (symMap angle nk false 0) := by
    unfold getImage
    refine if_pos (List.all_eq_true.2 fun k hk => ?_)
    rw [show symMap angle nk false 0 k = red nk k from rfl, red_of_mem hk]
    cases h : data k with
    | none => rfl
    | some a => rw [tolerated_some, sub_self, abs_zero]; exact heps
  have h2 : List.range (nrot angle) = 0 :: (List.range (nrot angle - 1)).map Nat.succ := by
    cases angle <;> rfl
  simp only [symmetries, List.flatMap_cons, List.flatMap_nil, List.append_nil]
  rw [show ∀ l : List ((Bool × Nat) × (P → P)), ((false, 0), symMap angle nk false 0) :: ((List.range (nrot angle)).filterMap (fun n =>
      if false || n != 0 || false then (getImage angle nk eps data false n).map fun image => ((false, n), image) else none) ++ l) =
      (((false, 0), symMap angle nk false 0) :: (List.range (nrot angle)).filterMap (fun n =>
      if false || n != 0 || false then (getImage angle nk eps data false n).map fun image => ((false, n), image) else none)) ++ l from fun l => rfl]
  refine congrArg₂ (· ++ ·) ?_ ?_
  · rw [h2, List.filterMap_cons, List.filterMap_cons]
    simp [h1, List.filterMap_map, Function.comp_def]
  · simp

/-! ## Orbits -/

/-- Isometries of the lattice. -/
def isoms (angle : Angle) : Finset Lin :=
  (([false, true].flatMap fun r => (List.range (nrot angle)).map fun n => lin angle r n)).toFinset

theorem mem_isoms (angle : Angle) (A : Lin) : A ∈ isoms angle ↔ A.Isometry angle := by
  simp only [isoms, List.mem_toFinset, List.mem_flatMap, List.mem_map, List.mem_range]
  constructor
  · rintro ⟨r, _, n, _, rfl⟩
    exact isometry_lin _ _ _
  · intro h
    obtain ⟨r, n, hn, rfl⟩ := lin_of_isometry angle A h
    exact ⟨r, by cases r <;> simp, n, hn, rfl⟩

theorem card_isoms (angle : Angle) : (isoms angle).card = 2 * nrot angle := by cases angle <;> decide

/-- **C177**: the number of points equivalent to a given point times the number of isometries that leave it where it is equals the number of
isometries (orbit-stabilizer theorem); thus the number of equivalent points divides 12 for triangular and 8 for square lattices. -/
theorem C177_multiplicity (angle : Angle) (nk : Int) (k : P) :
    (images k nk angle).card * ((isoms angle).filter fun A => red nk (A.act k) = red nk k).card = 2 * nrot angle := by
  have himg : images k nk angle = (isoms angle).image fun A => red nk (A.act k) := by
    ext p
    rw [mem_images_isometry, Finset.mem_image]
    exact ⟨fun ⟨A, hA, h⟩ => ⟨A, (mem_isoms ..).2 hA, h.symm⟩, fun ⟨A, hA, h⟩ => ⟨A, (mem_isoms ..).1 hA, h.symm⟩⟩
  rw [← card_isoms, Finset.card_eq_sum_card_image (fun A => red nk (A.act k)) (isoms angle), ← himg, ← smul_eq_mul, ← Finset.sum_const]
  refine Finset.sum_congr rfl fun p hp => ?_
  obtain ⟨B, hB, rfl⟩ := (mem_images_isometry ..).1 hp
  obtain ⟨C, hC, hCB⟩ := isometry_inv angle B hB
  obtain ⟨D, _, hDC⟩ := isometry_inv angle C hC
  have hBC : ∀ k, B.act (C.act k) = k := by
    intro k
    have h1 := hDC (B.act (C.act k))
    rw [hCB, hDC] at h1
    exact h1.symm
  refine Finset.card_bij' (fun A _ => B.mul A) (fun A _ => C.mul A) ?_ ?_ ?_ ?_
  · intro A hA
    rw [Finset.mem_filter, mem_isoms] at hA ⊢
    refine ⟨isometry_mul hB hA.1, ?_⟩
    show red nk ((B.mul A).act k) = red nk (B.act k)
    rw [Lin.act_mul, ← red_act_red, hA.2, red_act_red]
  · intro A hA
    rw [Finset.mem_filter, mem_isoms] at hA ⊢
    have h2 : red nk (A.act k) = red nk (B.act k) := hA.2
    refine ⟨isometry_mul hC hA.1, ?_⟩
    rw [Lin.act_mul, ← red_act_red, h2, red_act_red, hCB]
  · intro A _
    exact act_ext fun k => by rw [Lin.act_mul, Lin.act_mul, hCB]
  · intro A _
    exact act_ext fun k => by rw [Lin.act_mul, Lin.act_mul, hBC]

/-! ## Violations -/

/-- Rising from one corner of a cross to the opposite one. -/
def slope : P → Int := fun k => if k = (0, 1) ∨ k = (0, 2) then 1 else if k = (2, 0) then 2 else 0

/-- **C177** does not hold with tolerance: a rotation by 90 degrees is found, but not the one by 180 degrees. -/
theorem C177_tolerance_violated : ∃ (angle : Angle) (nk : Nat) (eps : Int) (f : P → Int),
    ∃ s ∈ symmetries angle nk eps true fun k => some (f k), ¬ ∃ u ∈ symmetries angle nk eps true fun k => some (f k),
      ∀ k, OnMesh nk k → u.2 k = s.2 (s.2 k) := by
  refine ⟨.a90, 3, 1, slope, ((false, 1), symMap .a90 3 false 1), (mem_symmetries ..).2 ⟨by decide, rfl, rfl, fun k hk => ?_⟩, ?_⟩
  · have key : ∀ k ∈ meshPoints 3, tolerated 1 (some (slope k)) (some (slope (symMap .a90 3 false 1 k))) = true := by decide
    exact key k ((onMesh_iff 3 k).1 hk)
  · rintro ⟨u, hu, h⟩
    obtain ⟨_, _, _, h4⟩ := (mem_symmetries ..).1 hu
    have h5 := h4 (1, 0) ⟨⟨by decide, by decide⟩, by decide, by decide⟩
    rw [h (1, 0) ⟨⟨by decide, by decide⟩, by decide, by decide⟩] at h5
    revert h5
    decide

/-- Two opposite corners known. -/
def cross : P → Option Int := fun k => if k = (0, 1) ∨ k = (0, 2) then none else if k = (2, 0) then some 1 else some 0

/-- **C177** does not hold for incomplete data either: the rotation by 90 degrees is found although no completion of the data has this symmetry, and
`complete` makes use of it. -/
theorem C177_missing_violated : ∃ (angle : Angle) (nk : Nat) (data : P → Option Int) (s : (Bool × Nat) × (P → P)),
    (symmetries angle nk 0 false data).head? = some s ∧
    (∀ f : P → Int, (∀ k, OnMesh nk k → ∀ v, data k = some v → f k = v) → ∃ k, OnMesh nk k ∧ f (s.2 k) ≠ f k) ∧
    complete nk angle data (s.2 (0, 1)) ≠ complete nk angle data (0, 1) ∧ data (0, 1) = none := by
  refine ⟨.a90, 3, cross, ((false, 1), symMap .a90 3 false 1), ?_, ?_, by decide +kernel, rfl⟩
  · have h1 : getImage .a90 3 0 cross false 1 = some (symMap .a90 3 false 1) := by
      unfold getImage
      exact if_pos (by decide)
    have h2 : List.range (nrot .a90) = [0, 1, 2, 3] := rfl
    simp [symmetries, h2, h1, List.filterMap_cons]
  · intro f hf
    by_contra hne
    push Not at hne
    have e1 : f (1, 0) = 0 := hf (1, 0) ⟨⟨by decide, by decide⟩, by decide, by decide⟩ 0 rfl
    have e2 : f (2, 0) = 1 := hf (2, 0) ⟨⟨by decide, by decide⟩, by decide, by decide⟩ 1 rfl
    have e3 : f (0, 1) = f (1, 0) := hne (1, 0) ⟨⟨by decide, by decide⟩, by decide, by decide⟩
    have e4 : f (2, 0) = f (0, 1) := hne (0, 1) ⟨⟨by decide, by decide⟩, by decide, by decide⟩
    omega

/-- `elphmod/bravais.py` 577-578, 588-602 for any angle, in radians, with exact real numbers; `dangle` is 60 degrees (line 617). Python's and Mathlib's
`round` differ at half-integers only, which do not occur below. -/
noncomputable def cartAny (angle : ℝ) (nk : Int) (n : Nat) (k : P) : P :=
  let a1 : ℝ × ℝ := (1, 0)
  let a2 := rotate a1 (Real.pi - angle)
  let b := recip2 a1 a2
  let K := rotate (k.1 * b.1.1 + k.2 * b.2.1, k.1 * b.1.2 + k.2 * b.2.2) (n * (Real.pi / 3))
  (round (dot2 K a1) % nk, round (dot2 K a2) % nk)

theorem round_of (x : ℝ) (z : Int) (h1 : z - 1 / 2 ≤ x) (h2 : x < z + 1 / 2) : round x = z := by
  rw [round_eq, Int.floor_eq_iff]
  constructor <;> push_cast <;> linarith

/-- **C177** does not hold for lattices with other angles, which can be passed to `symmetries`, either: for an angle of 45 degrees, two points of
the mesh are mapped to the same point by the map that is tested for a rotation by 60 degrees and found for constant data. -/
theorem C177_angle_violated : ∃ k l, OnMesh 2 k ∧ OnMesh 2 l ∧ k ≠ l ∧ cartAny (Real.pi / 4) 2 1 k = cartAny (Real.pi / 4) 2 1 l := by
  refine ⟨(1, 0), (1, 1), ⟨⟨by decide, by decide⟩, by decide, by decide⟩, ⟨⟨by decide, by decide⟩, by decide, by decide⟩, by decide, ?_⟩
  have hs2 : Real.sqrt 2 * Real.sqrt 2 = 2 := Real.mul_self_sqrt (by norm_num)
  have hs3 : Real.sqrt 3 * Real.sqrt 3 = 3 := Real.mul_self_sqrt (by norm_num)
  have p2 : 0 < Real.sqrt 2 := by positivity
  have p3 : 0 < Real.sqrt 3 := by positivity
  have l2 : 1.41 < Real.sqrt 2 := by rw [Real.lt_sqrt] <;> norm_num
  have u2 : Real.sqrt 2 < 1.42 := by rw [Real.sqrt_lt'] <;> norm_num
  have l3 : 1.73 < Real.sqrt 3 := by rw [Real.lt_sqrt] <;> norm_num
  have u3 : Real.sqrt 3 < 1.74 := by rw [Real.sqrt_lt'] <;> norm_num
  have ha2 : rotate (1, 0) (Real.pi - Real.pi / 4) = (-(Real.sqrt 2 / 2), Real.sqrt 2 / 2) := by
    simp [rotate, Real.cos_pi_sub, Real.sin_pi_sub]
  have hb : recip2 (1, 0) (-(Real.sqrt 2 / 2), Real.sqrt 2 / 2) = ((1, 1), (0, Real.sqrt 2)) := by
    simp only [recip2, rotate, dot2, Real.cos_neg, Real.sin_neg, Real.cos_pi_div_two, Real.sin_pi_div_two]
    ext <;> simp
  have h60 : ∀ x y : ℝ, rotate (x, y) ((1 : Nat) * (Real.pi / 3)) = (x / 2 - y * Real.sqrt 3 / 2, x * Real.sqrt 3 / 2 + y / 2) := by
    intro x y
    simp only [rotate, Nat.cast_one, one_mul, Real.cos_pi_div_three, Real.sin_pi_div_three]
    ext <;> ring
  unfold cartAny
  simp only [ha2, hb, h60, dot2]
  rw [round_of _ 0 (by push_cast; nlinarith) (by push_cast; nlinarith), round_of _ 1 (by push_cast; nlinarith) (by push_cast; nlinarith),
    round_of _ (-2) (by push_cast; nlinarith) (by push_cast; nlinarith), round_of _ 3 (by push_cast; nlinarith) (by push_cast; nlinarith)]
  decide

/-! ## Examples -/

example := C177_found .a60 12 (0 : Int) (fun k => (normSq .a60 k) % 2) swapL (isometry_swapL .a60)

example : ∃ s ∈ symmetries .a60 12 (0 : Int) true fun k => some (normSq .a60 k % 2), Represents 12 s.2 swapL :=
  (C177_found .a60 12 0 (fun k => normSq .a60 k % 2) swapL (isometry_swapL .a60)).1 fun k hk => by
    obtain ⟨h1, h2⟩ := red_modEq (12 : Int) (swapL.act k)
    have : normSq .a60 (red 12 (swapL.act k)) % 2 = normSq .a60 k % 2 := by
      have h3 : red 12 (swapL.act k) = swapL.act k := by
        rw [act_swapL]
        exact red_of_mem (nk := 12) ((onMesh_iff 12 _).1 ⟨hk.2, hk.1⟩)
      rw [h3, isometry_swapL]
    show |normSq .a60 k % 2 - normSq .a60 (red 12 (swapL.act k)) % 2| ≤ 0
    rw [this, sub_self, abs_zero]

example (nk : Nat) := C177_group .a120 nk (fun _ => (1 : Int)) ((true, 5), symMap .a120 nk true 5) ((false, 2), symMap .a120 nk false 2)
  ((mem_symmetries ..).2 ⟨by simp [nrot], rfl, rfl, fun k _ => by simp [tolerated]⟩) ((mem_symmetries ..).2 ⟨by simp [nrot], rfl, rfl, fun k _ => by simp [tolerated]⟩)

example (nk : Nat) := C177_permutation .a120 nk 0 true (fun _ => some (1 : Int)) ((true, 5), symMap .a120 nk true 5)
  ((mem_symmetries ..).2 ⟨by simp [nrot], rfl, rfl, fun k _ => by simp [tolerated]⟩)

example := C177_sound .a90 3 1 true slope ((false, 1), symMap .a90 3 false 1) ((mem_symmetries ..).2 ⟨by decide, rfl, rfl, fun k hk => by
  have key : ∀ k ∈ meshPoints 3, tolerated 1 (some (slope k)) (some (slope (symMap .a90 3 false 1 k))) = true := by decide
  exact key k ((onMesh_iff 3 k).1 hk)⟩)

example := C177_unity .a60 7 (1 : Int) (by decide) cross

example := C177_names .a60 7 (1 : Int) true cross

example : (images (1, 0) 7 .a60).card * ((isoms .a60).filter fun A => red 7 (A.act (1, 0)) = red 7 (1, 0)).card = 12 := C177_multiplicity .a60 7 (1, 0)

end Verif.Mesh
