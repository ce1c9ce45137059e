import Verif.Bravais.Model
import Mathlib.Data.List.Forall2
import Mathlib.Algebra.BigOperators.Group.List.Basic
import Mathlib.Tactic.Linarith
import Mathlib.Tactic.FieldSimp

/-! # Property C32 -/

namespace Verif.Bravais

/-- Indices within the bounds of a shape. -/
def InShape (n idx : List Nat) : Prop := List.Forall₂ (fun i m => i < m) idx n

/-- Position of an index in a flattened array (C order): `(i1 * n2 + i2) * n3 + i3` etc. -/
def ravel : List Nat → List Nat → Nat
  | _ :: ns, i :: is => i * ns.prod + ravel ns is
  | _, _ => 0

/-- Coordinates in units of the period. -/
noncomputable def fraction (n idx : List Nat) : List ℝ := List.zipWith (fun i m : Nat => (i : ℝ) / (m : ℝ)) idx n

theorem length_indices (n : List Nat) : (indices n).length = n.prod := by
  induction n with
  | nil => rfl
  | cons n ns ih => simp [indices, ih]

theorem mem_indices (n idx : List Nat) : idx ∈ indices n ↔ InShape n idx := by
  induction n generalizing idx with
  | nil => simp [indices, InShape]
  | cons n ns ih =>
    simp only [indices, List.mem_flatMap, List.mem_range, List.mem_map, ih]
    constructor
    · rintro ⟨i, hi, is, his, rfl⟩
      exact List.Forall₂.cons hi his
    · intro h
      cases h with
      | cons h1 h2 => exact ⟨_, h1, _, h2, rfl⟩

theorem ravel_lt (n idx : List Nat) (h : InShape n idx) : ravel n idx < n.prod := by
  induction n generalizing idx with
  | nil => cases h; simp [ravel]
  | cons n ns ih =>
    cases h with
    | cons h1 h2 =>
      rename_i i is
      have := ih is h2
      simp only [ravel, List.prod_cons]
      calc i * ns.prod + ravel ns is < i * ns.prod + ns.prod := by omega
        _ = (i + 1) * ns.prod := by ring
        _ ≤ n * ns.prod := Nat.mul_le_mul_right _ h1

theorem getElem?_flatMap_block {β : Type} (n b : Nat) (f : Nat → List β) (hf : ∀ i, (f i).length = b)
    (i j : Nat) (hi : i < n) (hj : j < b) :
    ((List.range n).flatMap f)[i * b + j]? = (f i)[j]? := by
  induction n with
  | zero => omega
  | succ n ih =>
    rw [List.range_succ, List.flatMap_append]
    have hlen : ((List.range n).flatMap f).length = n * b := by
      simp [List.length_flatMap, hf]
    by_cases h : i < n
    · have hb : i * b + j < n * b := by
        calc i * b + j < (i + 1) * b := by rw [Nat.add_mul]; omega
          _ ≤ n * b := Nat.mul_le_mul_right _ h
      rw [List.getElem?_append_left (by rw [hlen]; exact hb)]
      exact ih h
    · have : i = n := by omega
      subst this
      rw [List.getElem?_append_right (by rw [hlen]; omega), hlen]
      simp

theorem getElem?_indices (n idx : List Nat) (h : InShape n idx) :
    (indices n)[ravel n idx]? = some idx := by
  induction n generalizing idx with
  | nil => cases h; rfl
  | cons n ns ih =>
    cases h with
    | cons h1 h2 =>
      rename_i i is
      have e : indices (n :: ns) = (List.range n).flatMap fun i => (indices ns).map fun is => i :: is := rfl
      have e2 : ravel (n :: ns) (i :: is) = i * ns.prod + ravel ns is := rfl
      rw [e, e2, getElem?_flatMap_block n ns.prod _ (fun i => by simp [length_indices]) i _ h1
        (ravel_lt ns is h2), List.getElem?_map, ih is h2]
      rfl

/-- C32. The flat mesh has as many points as the product of the dimensions, the point with indices
`i1, i2, ...` has position `(i1 * n2 + i2) * ...` and coordinates `2 pi i / n`. -/
theorem C32_mesh (n : List Nat) :
    (meshFlat n).length = n.prod ∧
    ∀ idx, InShape n idx → (meshFlat n)[ravel n idx]? = some ((fraction n idx).map (2 * Real.pi * ·)) := by
  refine ⟨by rw [meshFlat, List.length_map, length_indices], ?_⟩
  intro idx h
  rw [meshFlat, List.getElem?_map, getElem?_indices n idx h, Option.map_some]
  congr 1
  unfold meshPoint fraction
  clear h
  induction idx generalizing n with
  | nil => simp
  | cons i is ih =>
    cases n with
    | nil => simp
    | cons m ns =>
      simp only [List.zip_cons_cons, List.map_cons, List.zipWith_cons_cons, ih]
      congr 1
      ring

/-- C32 (bijection). Every position belongs to exactly one set of indices, so that reshaping the flat
list gives back the mesh. -/
theorem C32_positions (n : List Nat) (p : Nat) (hp : p < n.prod) :
    ∃! idx, InShape n idx ∧ ravel n idx = p := by
  have hlen : p < (indices n).length := by rw [length_indices]; exact hp
  have inj : ∀ n idx, InShape n idx → ∀ idx', InShape n idx' → ravel n idx = ravel n idx' → idx = idx' := by
    intro n idx h idx' h' he
    have h1 := getElem?_indices n idx h
    have h2 := getElem?_indices n idx' h'
    rw [he] at h1
    rw [h1] at h2
    exact Option.some.inj h2
  -- existence by induction
  have ex : ∀ (n : List Nat) (p : Nat), p < n.prod → ∃ idx, InShape n idx ∧ ravel n idx = p := by
    intro n
    induction n with
    | nil =>
      intro p hp
      refine ⟨[], List.Forall₂.nil, ?_⟩
      simp at hp
      rw [hp]; rfl
    | cons m ns ih =>
      intro p hp
      rw [List.prod_cons] at hp
      have hpos : 0 < ns.prod := by
        rcases Nat.eq_zero_or_pos ns.prod with h | h
        · rw [h] at hp; omega
        · exact h
      obtain ⟨is, h1, h2⟩ := ih (p % ns.prod) (Nat.mod_lt _ hpos)
      refine ⟨p / ns.prod :: is, List.Forall₂.cons ?_ h1, ?_⟩
      · exact (Nat.div_lt_iff_lt_mul hpos).2 hp
      · show p / ns.prod * ns.prod + ravel ns is = p
        rw [h2]
        exact Nat.div_add_mod' p ns.prod
  obtain ⟨idx, h1, h2⟩ := ex n p hp
  exact ⟨idx, ⟨h1, h2⟩, fun idx' h' => inj n idx' h'.1 idx h1 (h'.2.trans h2.symm)⟩

theorem fraction_inj (n i j : List Nat) (hi : InShape n i) (hj : InShape n j)
    (e4 : fraction n i = fraction n j) : i = j := by
  induction n generalizing i j with
  | nil => cases hi; cases hj; rfl
  | cons m ns ih =>
    cases hi with
    | cons h1 h2 =>
      cases hj with
      | cons h3 h4 =>
        simp only [fraction, List.zipWith_cons_cons, List.cons.injEq] at e4
        have hm : (m : ℝ) ≠ 0 := by
          have : m ≠ 0 := by omega
          exact_mod_cast this
        have h5 := (div_left_inj' hm).1 e4.1
        have h6 := ih _ _ h2 h4 e4.2
        rw [h6]
        congr 1
        exact_mod_cast h5

/-- C32 (no repetition, nothing missing). The points are distinct and are exactly those with
coordinates `2 pi i / n`, `i < n`. -/
theorem C32_exact (n : List Nat) :
    (meshFlat n).Nodup ∧
    ∀ k, k ∈ meshFlat n ↔ ∃ idx, InShape n idx ∧ k = (fraction n idx).map (2 * Real.pi * ·) := by
  have hmem : ∀ k, k ∈ meshFlat n ↔ ∃ idx, InShape n idx ∧ k = (fraction n idx).map (2 * Real.pi * ·) := by
    intro k
    constructor
    · intro hk
      rw [meshFlat, List.mem_map] at hk
      obtain ⟨idx, hi, rfl⟩ := hk
      have hs := (mem_indices n idx).1 hi
      refine ⟨idx, hs, ?_⟩
      have h1 := (C32_mesh n).2 idx hs
      rw [meshFlat, List.getElem?_map, getElem?_indices n idx hs] at h1
      exact Option.some.inj h1
    · rintro ⟨idx, hs, rfl⟩
      exact List.mem_of_getElem? ((C32_mesh n).2 idx hs)
  refine ⟨?_, hmem⟩
  rw [List.nodup_iff_injective_get]
  intro p q hpq
  have hl := (C32_mesh n).1
  obtain ⟨i, ⟨hi, hri⟩, _⟩ := C32_positions n p (by rw [← hl]; exact p.2)
  obtain ⟨j, ⟨hj, hrj⟩, _⟩ := C32_positions n q (by rw [← hl]; exact q.2)
  have e1 := (C32_mesh n).2 i hi
  have e2 := (C32_mesh n).2 j hj
  rw [hri, List.getElem?_eq_getElem p.2] at e1
  rw [hrj, List.getElem?_eq_getElem q.2] at e2
  simp only [List.get_eq_getElem] at hpq
  rw [hpq] at e1
  have e3 := Option.some.inj (e1.symm.trans e2)
  have pi2 : (2 * Real.pi) ≠ 0 := by positivity
  have hij : i = j := by
    have e4 : fraction n i = fraction n j :=
      List.map_injective_iff.2 (fun x y h => mul_left_cancel₀ pi2 h) e3
    exact fraction_inj n i j hi hj e4
  apply Fin.ext
  rw [← hri, ← hrj, hij]

/-- C32 (`kpoints`). The printed number is the number of lines; without weights line `ravel n idx` holds
the fractions `i / n`; with weights, each line ends with the same weight and the weights add up to one. -/
theorem C32_kpoints (n : List Nat) (weights : Bool) :
    (kpoints n weights).2.length = (kpoints n weights).1 ∧
    (∀ idx, InShape n idx → (kpoints n weights).2[ravel n idx]? =
      some (fraction n idx ++ if weights then [1 / (n.prod : ℝ)] else [])) ∧
    (n.prod ≠ 0 → (((kpoints n true).2.map fun line => line.getLastD 0)).sum = 1) := by
  have pi2 : (2 * Real.pi) ≠ 0 := by positivity
  refine ⟨by simp [kpoints, (C32_mesh n).1], ?_, ?_⟩
  · intro idx h
    simp only [kpoints, List.getElem?_map, (C32_mesh n).2 idx h, Option.map_some, List.map_map]
    congr 2
    conv_rhs => rw [← List.map_id (fraction n idx)]
    apply List.map_congr_left
    intro x _
    simp only [Function.comp, id]
    field_simp
  · intro hn
    have hn' : (n.prod : ℝ) ≠ 0 := by exact_mod_cast hn
    have : ((kpoints n true).2.map fun line => line.getLastD 0) =
        List.replicate n.prod (1 / (n.prod : ℝ)) := by
      simp only [kpoints, List.map_map]
      rw [List.eq_replicate_iff]
      refine ⟨by rw [List.length_map, (C32_mesh n).1], ?_⟩
      intro x hx
      obtain ⟨k, _, rfl⟩ := List.mem_map.1 hx
      simp
    rw [this, List.sum_replicate, nsmul_eq_mul]
    field_simp

example : InShape [2, 3, 4] [1, 2, 3] ∧ ravel [2, 3, 4] [1, 2, 3] = 23 := by
  refine ⟨?_, by decide⟩
  simp [InShape]

end Verif.Bravais
