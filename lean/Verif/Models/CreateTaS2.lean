import Verif.Models.Create
import Verif.Models.TaS2

/-!
# Models created by `elphmod/models/tas2.py` (C142)

As in `Verif.Models.Create`, all parameters are arbitrary and the lattice constants are between 1 and 100 bohr.
-/

namespace Verif.Models.TaS2

open Verif.Voronoi Verif.Fourier

/-- `elphmod/models/tas2.py` 57-58: atomic positions. -/
noncomputable def position (a c : ℝ) (i : Fin 3) (x : Fin 3) : ℝ :=
  let s := ![1, 2, 2] i * hex a c 0 x + ![2, 1, 1] i * hex a c 1 x + ![0, 0.1, -0.1] i * hex a c 2 x
  if x = 2 then s else s / 3

/-- `elphmod/models/tas2.py` 336 and 340-341: tight-binding model. -/
noncomputable def createEl (size : Nat) (a c ez ex : ℝ) (t0 : Mat) (Ry : ℝ) (rydberg : Bool) : Option (List (V3 × (Fin 3 → Fin 3 → ℂ))) :=
  k2r size 3 3 1 (hex a c) (fun _ => position a c 0) true true rydberg true Ry fun k α β =>
    hamiltonian ez ex t0 (meshK 3 3 1 k 0) (meshK 3 3 1 k 1) α β

/-- `elphmod/models/tas2.py` 337 and 344-346: mass-spring model. -/
noncomputable def createPh (size : Nat) (a c : ℝ) (p : Springs) (mass : Fin 3 → ℝ) (divideMass : Bool) :
    Option (List (V3 × (Fin 3 × Fin 3 → Fin 3 × Fin 3 → ℂ))) :=
  phQ2r size 2 2 1 (hex a c) (position a c) mass true divideMass true fun q x y =>
    dynamicalMatrix p mass (meshK 2 2 1 q 0) (meshK 2 2 1 q 1) x y

/-- `elphmod/models/tas2.py` 338 and 349-350: coupling. -/
noncomputable def createElph (size : Nat) (a c beta : ℝ) (t0 : Mat) (mass : Fin 3 → ℝ) (divideMass : Bool) :=
  elphQ2r size 3 3 1 3 3 1 (hex a c) (fun _ : Fin 3 => position a c 0) (position a c) mass true divideMass fun q x k α β =>
    coupling a beta t0 mass (meshK 3 3 1 q 0) (meshK 3 3 1 q 1) (meshK 3 3 1 k 0) (meshK 3 3 1 k 1) x α β

/-- Difference of positions in thirds of in-plane lattice vectors and tenths of the out-of-plane lattice vector. -/
def diff (i j : Fin 3) : Int × Int × Int :=
  (![1, 2, 2] j - ![1, 2, 2] i, ![2, 1, 1] j - ![2, 1, 1] i, ![0, 1, -1] j - ![0, 1, -1] i)

theorem tas2_length (a c : ℝ) (i j : Fin 3) (R : V3) :
    bondLength (hex a c) (position a c i) (position a c j) R =
      Real.sqrt (a ^ 2 / 9 * (hexP (diff i j).1 (diff i j).2.1 R : ℝ) + c ^ 2 / 100 * (hexW (diff i j).2.2 R : ℝ)) := by
  apply hex_length
  intro x
  unfold position
  fin_cases i <;> fin_cases j <;> fin_cases x <;> simp [diff, hex] <;> first | ring1 | (left; norm_num)

/-- A site and its neighbors. -/
def star7 : List V3 := [(0, 0, 0), (1, 0, 0), (1, 1, 0), (0, 1, 0), (-1, 0, 0), (-1, -1, 0), (0, -1, 0)]

/-- Position in this list. -/
def index7 (R : V3) : Nat := star7.idxOf R

theorem index7_eq : index7 (0, 0, 0) = 0 ∧ index7 (1, 0, 0) = 1 ∧ index7 (1, 1, 0) = 2 ∧ index7 (0, 1, 0) = 3 ∧ index7 (-1, 0, 0) = 4 ∧
    index7 (-1, -1, 0) = 5 ∧ index7 (0, -1, 0) = 6 := by decide

/-- Number of the neighbor. -/
def nb : Nat → Fin 6
  | 0 | 1 => 0
  | 2 => 1
  | 3 => 2
  | 4 => 3
  | 5 => 4
  | _ => 5

variable (a c : ℝ)

/-- C142: the created tight-binding model of TaS2 has the Hamiltonian of the model function at all wave vectors. -/
theorem C142_tas2_el (size : Nat) (hsize : 0 < size) (ez ex : ℝ) (t0 : Mat) (Ry : ℝ) (ha : 1 ≤ a) (ha' : a ≤ 100) (hc : 1 ≤ c)
    (hc' : c ≤ 100) (rydberg : Bool) : ∃ l, createEl size a c ez ex t0 Ry rydberg = some l ∧
      ∀ k α β, bloch l k α β = unitFactor true rydberg Ry * hamiltonian ez ex t0 (k 0) (k 1) α β := by
  refine k2r_exact size hsize 3 3 1 (by norm_num) (by norm_num) (by norm_num) (hex a c) (fun _ => position a c 0) true rydberg Ry
    (fun _ _ => star7.toFinset)
    (fun α β R => (fun n : Nat => ((if n = 0 then Matrix.diagonal ![ez, ex, ex] α β else t t0 (nb n) α β : ℝ) : ℂ)) (index7 R))
    (fun α β => ?_) (fun k α β => hamiltonian ez ex t0 (k 0) (k 1) α β) (fun k α β => ?_)
  · exact short_of_check 1 (Or.inl rfl) 3 3 1 (hexP (diff 0 0).1 (diff 0 0).2.1) (hexW (diff 0 0).2.2) (a ^ 2 / 9) (c ^ 2 / 100)
      (Graphene.hexA a ha) (Graphene.hexA' a ha ha') (Graphene.hexC c hc) (Graphene.hexC' c hc hc') _ _ _ (tas2_length a c 0 0) _ index7
      (fun n => ((if n = 0 then Matrix.diagonal ![ez, ex, ex] α β else t t0 (nb n) α β : ℝ) : ℂ)) (by decide +kernel)
  · rw [fourierSum_list _ (by decide)]
    simp [star7, index7_eq, nb, hamiltonian, phase_cis, ← sub_eq_add_neg]
    ring_nf

/-- Lattice vectors of the displaced atom and of the initial orbital relative to the final orbital. -/
def pairs : List (V3 × V3) := star7.tail.flatMap fun R => [(R, R), ((0, 0, 0), R)]

/-- C142: the created electron-phonon coupling of TaS2 is that of the model function at all wave vectors. -/
theorem C142_tas2_elph (size : Nat) (hsize : 0 < size) (beta : ℝ) (t0 : Mat) (mass : Fin 3 → ℝ) (divideMass : Bool) (ha : 1 ≤ a) (ha' : a ≤ 100)
    (hc : 1 ≤ c) (hc' : c ≤ 100) (q k : Fin 3 → ℝ) (x : Fin 3 × Fin 3) (α β : Fin 3) :
    Verif.Fourier.coupling (createElph size a c beta t0 mass divideMass).1 (createElph size a c beta t0 mass divideMass).2.1
        (createElph size a c beta t0 mass divideMass).2.2 q k x α β =
      couplingFactor divideMass (mass x.1) * coupling a beta t0 mass (q 0) (q 1) (k 0) (k 1) x α β := by
  refine elph_exact size hsize 3 3 1 3 3 1 (by norm_num) (by norm_num) (by norm_num) (by norm_num) (by norm_num) (by norm_num) (hex a c)
    (fun _ : Fin 3 => position a c 0) (position a c) mass divideMass
    (fun x _ _ => if x.1 = 0 then pairs.toFinset else ∅)
    (fun x α β P => (if P.1 = (0, 0, 0) then -1 else 1) * ((dt a beta t0 (nb (index7 P.2)) x α β : ℝ) : ℂ) / (Real.sqrt (mass x.1) : ℂ))
    (fun x α β => ?_) (fun q x k α β => coupling a beta t0 mass (q 0) (q 1) (k 0) (k 1) x α β) (fun q x k α β => ?_) q k x α β
  · by_cases hx : x.1 = 0
    · rw [if_pos hx]
      exact shortPairs_of_check 3 3 1 3 3 1 (hexP (diff 0 0).1 (diff 0 0).2.1) (hexW (diff 0 0).2.2) (hexP (diff 0 0).1 (diff 0 0).2.1)
        (hexW (diff 0 0).2.2) (a ^ 2 / 9) (c ^ 2 / 100) (Graphene.hexA a ha) (Graphene.hexA' a ha ha') (Graphene.hexC c hc)
        (Graphene.hexC' c hc hc') _ _ _ _ (by rw [hx]; exact tas2_length a c 0 0) (tas2_length a c 0 0) _ _ (by decide +kernel)
    · rw [if_neg hx]
      exact shortPairs_empty _ _ _ _ _ _ _ _ _ _ _
  · by_cases hx : x.1 = 0
    · rw [if_pos hx, fourierSum2_list _ (by decide)]
      have e1 : k 0 + q 0 + (k 1 + q 1) = k 0 + k 1 + (q 0 + q 1) := by ring
      simp [pairs, star7, index7_eq, nb, coupling, phase_cis, e1, cis_add]
      ring
    · rw [if_neg hx]
      have h0 : x ≠ (0, 0) := fun h => hx (by rw [h])
      have h1 : x ≠ (0, 1) := fun h => hx (by rw [h])
      simp [coupling, dt, h0, h1, fourierSum2]

theorem C_opposite (p : Springs) : p.C 3 = p.C 0 ∧ p.C 4 = p.C 1 ∧ p.C 5 = p.C 2 := by
  unfold Springs.C
  rw [diagonal3]
  exact six_eq _ _ _ _ _

theorem D_opposite (p : Springs) : p.D 3 = p.D 0 ∧ p.D 4 = p.D 1 ∧ p.D 5 = p.D 2 := by
  unfold Springs.D
  rw [neg_zero]
  exact six_eq _ _ _ _ _

theorem F_opposite (p : Springs) : p.F 3 = p.F 0 ∧ p.F 4 = p.F 1 ∧ p.F 5 = p.F 2 := six_eq _ _ _ _ _

theorem E_equal (p : Springs) : p.E 1 = p.E 0 ∧ p.E 2 = p.E 0 := by
  have h : ∀ phi, rotate (Matrix.diagonal ![p.ex, p.ex, p.ez]) phi = Matrix.diagonal ![p.ex, p.ex, p.ez] := by
    intro phi
    have h := Real.sin_sq_add_cos_sq phi
    ext x y
    rw [rotate_apply]
    fin_cases x <;> fin_cases y <;> simp [Fin.sum_univ_three]
    · linear_combination p.ex * h
    · ring
    · ring
    · linear_combination p.ex * h
  exact ⟨(h _).trans (h _).symm, (h _).trans (h _).symm⟩

/-- Lattice vectors of springs. -/
def springs (i j : Fin 3) : List V3 :=
  if i = j ∨ (i ≠ 0 ∧ j ≠ 0) then star7
  else if i = 0 then [(0, 0, 0), (0, 1, 0), (-1, 0, 0), (1, 1, 0), (-1, 1, 0), (-1, -1, 0)]
  else [(0, 0, 0), (0, -1, 0), (1, 0, 0), (-1, -1, 0), (1, -1, 0), (1, 1, 0)]

/-- Directions of springs. -/
def label (R : V3) : Nat := if R = (0, 0, 0) then 0 else if R.1 = 0 then 1 else if R.2.1 = 0 then 2 else 3

theorem springs_nodup : ∀ i j, (springs i j).Nodup := by decide

theorem springs_check : ∀ i j, check (-1) 2 2 1 (hexP (diff i j).1 (diff i j).2.1) (hexW (diff i j).2.2) (springs i j) label = true := by
  decide +kernel

/-- The first three of six matrices by label. -/
def three (A : Fin 6 → Mat) (n : Nat) : Mat := A (if n = 1 then 2 else if n = 2 then 0 else 1)

/-- Sum of six matrices. -/
def sum6 (A : Fin 6 → Mat) : Mat := A 0 + A 1 + A 2 + A 3 + A 4 + A 5

/-- Springs between different layers by label. -/
noncomputable def layers (p : Springs) (n : Nat) : Mat :=
  if n = 0 then -p.A 0 else if n = 1 then -p.A 1 else if n = 2 then -p.A 2 else -p.E 0

/-- Force constants of TaS2. -/
noncomputable def force (p : Springs) (i j : Fin 3) (n : Nat) : Mat :=
  let intraA := p.A 0 + p.A 1 + p.A 2
  let intraE := p.E 0 + p.E 1 + p.E 2
  let intraF := p.F 0 + p.F 1 + p.F 2 + p.F 3 + p.F 4 + p.F 5
  match i, j with
    | 0, 0 => if n = 0 then intraA + zreflect intraA + sum6 p.C + intraE + zreflect intraE else -three p.C n
    | 1, 1 => if n = 0 then intraA.transpose + p.B.transpose + sum6 p.D + intraE.transpose + intraF.transpose
        else -three p.D n
    | 2, 2 => if n = 0 then (zreflect intraA).transpose + p.B + zreflect (sum6 p.D) + (zreflect intraE).transpose + intraF
        else -zreflect (three p.D n)
    | 0, 1 => layers p n
    | 0, 2 => zreflect (layers p n)
    | 2, 1 => if n = 0 then -p.B else -three p.F n
    | 1, 0 => (layers p n).transpose
    | 2, 0 => (zreflect (layers p n)).transpose
    | 1, 2 => if n = 0 then -p.B.transpose else -(three p.F n).transpose

/-- C142: the created mass-spring model of TaS2 has the dynamical matrix of the model function at all wave vectors. -/
theorem C142_tas2_ph (size : Nat) (hsize : 0 < size) (p : Springs) (mass : Fin 3 → ℝ) (hm : ∀ i, 0 < mass i) (divideMass : Bool) (ha : 1 ≤ a)
    (ha' : a ≤ 100) (hc : 1 ≤ c) (hc' : c ≤ 100) : ∃ l, createPh size a c p mass divideMass = some l ∧
      ∀ q x y, bloch l q x y = massFactor true divideMass (mass x.1) (mass y.1) * dynamicalMatrix p mass (q 0) (q 1) x y := by
  refine ph_exact size hsize 2 2 1 (by norm_num) (by norm_num) (by norm_num) (hex a c) (position a c) mass hm true divideMass
    (fun x y => (springs x.1 y.1).toFinset)
    (fun x y R => force p x.1 y.1 (label R) x.2 y.2 / Real.sqrt (mass x.1) / Real.sqrt (mass y.1))
    (fun x y => ?_) (fun q x y => dynamicalMatrix p mass (q 0) (q 1) x y) (fun q x y => ?_)
  · exact short_of_check (-1) (Or.inr rfl) 2 2 1 (hexP (diff x.1 y.1).1 (diff x.1 y.1).2.1) (hexW (diff x.1 y.1).2.2) (a ^ 2 / 9) (c ^ 2 / 100)
      (Graphene.hexA a ha) (Graphene.hexA' a ha ha') (Graphene.hexC c hc) (Graphene.hexC' c hc hc') _ _ _ (tas2_length a c x.1 y.1) _
      label (fun n => ((force p x.1 y.1 n x.2 y.2 / Real.sqrt (mass x.1) / Real.sqrt (mass y.1) : ℝ) : ℂ)) (springs_check x.1 y.1)
  · obtain ⟨i, x⟩ := x
    obtain ⟨j, y⟩ := y
    rw [fourierSum_list _ (springs_nodup i j)]
    suffices h : p.block (q 0) (q 1) i j x y = ((springs i j).map fun R => ((force p i j (label R) x y : ℝ) : ℂ) * phase R q).sum by
      simp only [dynamicalMatrix]
      rw [h, div_div, div_eq_mul_inv, ← List.sum_map_mul_right]
      congr 1
      refine List.map_congr_left fun R _ => ?_
      push_cast
      rw [div_div]
      ring
    obtain ⟨c3, c4, c5⟩ := C_opposite p
    obtain ⟨d3, d4, d5⟩ := D_opposite p
    obtain ⟨f3, f4, f5⟩ := F_opposite p
    obtain ⟨e1, e2⟩ := E_equal p
    have hs : (y = 2 ↔ x = 2) = (x = 2 ↔ y = 2) := propext iff_comm
    by_cases hz : (x = 2 ↔ y = 2) <;> fin_cases i <;> fin_cases j <;>
      simp [springs, star7, label, force, three, layers, Springs.block, both, inter6, Springs.interA, Springs.interE, toC, phase6, Fin.sum_univ_six,
        phase_cis, zreflect_apply, hs, hz, c3, c4, c5, d3, d4, d5, f3, f4, f5, e1, e2, sum6, ← sub_eq_add_neg] <;> ring_nf

example : ∃ l, createEl 2 6.3 28 0.1 0.2 !![1, 2, 3; 2, 4, 5; -3, -5, 6] 13.6 false = some l ∧ bloch l ![0.1, 0.2, 0] 1 2 =
    unitFactor true false 13.6 * hamiltonian 0.1 0.2 !![1, 2, 3; 2, 4, 5; -3, -5, 6] 0.1 0.2 1 2 := by
  obtain ⟨l, hl, hb⟩ := C142_tas2_el 6.3 28 2 (by norm_num) 0.1 0.2 !![1, 2, 3; 2, 4, 5; -3, -5, 6] 13.6 (by norm_num) (by norm_num)
    (by norm_num) (by norm_num) false
  exact ⟨l, hl, hb _ _ _⟩

example (p : Springs) : ∃ l, createPh 2 6.3 28 p ![180, 32, 32] false = some l ∧ ∀ q x y, bloch l q x y =
    massFactor true false (![180, 32, 32] x.1) (![180, 32, 32] y.1) * dynamicalMatrix p ![180, 32, 32] (q 0) (q 1) x y :=
  C142_tas2_ph 6.3 28 2 (by norm_num) p _ (by intro i; fin_cases i <;> simp) false (by norm_num) (by norm_num) (by norm_num) (by norm_num)

end Verif.Models.TaS2
