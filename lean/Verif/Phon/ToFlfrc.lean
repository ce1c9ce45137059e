import Verif.Fourier.Props
import Verif.Phon.Model
import Verif.Phon.SumRules

/-!
# Force constants of a mass-spring model: `ph.Model.to_flfrc` and the way back

`elphmod/ph.py` 969-1013 without the text file (see C113 for the file) and `elphmod/ph.py` 313-318 (models from force constants).
Lattice vectors with blocks of force constants are lists of pairs; the combined index of atom and direction is a pair.
-/

namespace Verif.ToFlfrc

open Verif.Voronoi
open Verif.Fourier
open Verif.Phon (Phid divideByMass C46_value)
open Verif.MPI

variable {n : Nat}

/-- Lattice vector and matrix of force constants. -/
abbrev Entry (n : Nat) := V3 × (Fin n × Fin 3 → Fin n × Fin 3 → ℂ)

/-- `elphmod/ph.py` 994-997: one round of the loop over lattice vectors. -/
def addBlock (n1 n2 n3 : Nat) (phid : Phid n) (e : Entry n) : Phid n := fun a b m x y =>
  if m = (-e.1.1 % (n1 : Int), -e.1.2.1 % (n2 : Int), -e.1.2.2 % (n3 : Int)) then phid a b m x y + e.2 (a, x) (b, y)
  else phid a b m x y

/-- `elphmod/ph.py` 989, 993-997: contribution of one process. -/
def rankPhid (n1 n2 n3 : Nat) (l : List (Entry n)) (bounds : List Nat) (rank : Nat) : Phid n :=
  (boundsRange bounds rank).foldl (fun phid i => match l[i]? with
    | some e => addBlock n1 n2 n3 phid e
    | none => phid) fun _ _ _ _ _ => 0

/-- `elphmod/ph.py` 1003-1005: one round of the loop over atoms. -/
noncomputable def massStep (M : Fin n → ℝ) (phid : Phid n) (na : Fin n) : Phid n :=
  let phid : Phid n := fun a b m x y => if a = na then phid a b m x y * (Real.sqrt (M na) : ℂ) else phid a b m x y
  fun a b m x y => if b = na then phid a b m x y * (Real.sqrt (M na) : ℂ) else phid a b m x y

/-- `elphmod/ph.py` 989-1005: force constants written to the file, for `size` processes. -/
noncomputable def toFlfrc (size n1 n2 n3 : Nat) (divideMass : Bool) (M : Fin n → ℝ) (l : List (Entry n)) : Option (Phid n) :=
  (distribute l.length size).map fun p =>
    let phid : Phid n := fun a b m x y => ∑ rank ∈ Finset.range size, rankPhid n1 n2 n3 l p.2 rank a b m x y
    if divideMass then (List.finRange n).foldl (massStep M) phid else phid

/-- `elphmod/ph.py` 313-318: model from force constants. -/
noncomputable def fromFlfrc (size n1 n2 n3 : Nat) (at' : Fin 3 → Fin 3 → ℝ) (r : Fin n → Fin 3 → ℝ) (divideMass : Bool)
    (M : Fin n → ℝ) (phid : Phid n) : Option (List (Entry n)) :=
  (shortRange size n1 n2 n3 at' r (-1) true phid).map fun l =>
    l.map fun e => (e.1, if divideMass then divideByMass M e.2 else e.2)

/-! ### Lemmas -/

/-- Contribution of one lattice vector. -/
def part (n1 n2 n3 : Nat) (a b : Fin n) (m : V3) (x y : Fin 3) (e : Entry n) : ℂ :=
  if m = meshIndex (-1) n1 n2 n3 e.1 then e.2 (a, x) (b, y) else 0

theorem addBlock_eq (n1 n2 n3 : Nat) (phid : Phid n) (e : Entry n) (a b : Fin n) (m : V3) (x y : Fin 3) :
    addBlock n1 n2 n3 phid e a b m x y = phid a b m x y + part n1 n2 n3 a b m x y e := by
  simp only [addBlock, part, meshIndex, neg_mul, one_mul]
  split <;> simp

theorem fold_eq (n1 n2 n3 : Nat) (l : List (Entry n)) (a b : Fin n) (m : V3) (x y : Fin 3) (is : List Nat) (start : Phid n) :
    is.foldl (fun phid i => match l[i]? with
      | some e => addBlock n1 n2 n3 phid e
      | none => phid) start a b m x y =
    start a b m x y + (is.map fun i => (l[i]?.map (part n1 n2 n3 a b m x y)).getD 0).sum := by
  induction is generalizing start with
  | nil => simp
  | cons i is ih =>
    rw [List.foldl_cons, ih, List.map_cons, List.sum_cons]
    cases l[i]? with
    | none => simp
    | some e => simp only [addBlock_eq, Option.map_some, Option.getD_some]; ring

theorem sum_range_get (l : List (Entry n)) (f : Entry n → ℂ) :
    ((List.range l.length).map fun i => (l[i]?.map f).getD 0).sum = (l.map f).sum := by
  congr 1
  apply List.ext_getElem
  · simp
  · intro i h1 h2
    simp at h1
    simp [h1]

theorem mass_fold (M : Fin n → ℝ) (nas : List (Fin n)) (hn : nas.Nodup) (phid : Phid n) (a b : Fin n) (m : V3) (x y : Fin 3) :
    nas.foldl (massStep M) phid a b m x y = phid a b m x y * (if a ∈ nas then (Real.sqrt (M a) : ℂ) else 1) *
      (if b ∈ nas then (Real.sqrt (M b) : ℂ) else 1) := by
  induction nas generalizing phid with
  | nil => simp
  | cons c nas ih =>
    rw [List.nodup_cons] at hn
    rw [List.foldl_cons, ih hn.2]
    simp only [massStep, List.mem_cons]
    by_cases ha : a = c <;> by_cases hb : b = c
    · subst ha; subst hb; simp [hn.1]
    · subst ha; simp [hn.1, hb]
    · subst hb
      simp only [ha, hn.1, if_true, if_false, or_false, or_true, false_or]
      ring
    · simp [ha, hb]

/-- Square roots of the masses, if the model is divided by them. -/
noncomputable def factor (divideMass : Bool) (M : Fin n → ℝ) (a b : Fin n) : ℂ :=
  if divideMass then (Real.sqrt (M a) : ℂ) * (Real.sqrt (M b) : ℂ) else 1

theorem factor_ne (divideMass : Bool) (M : Fin n → ℝ) (hM : ∀ a, 0 < M a) (a b : Fin n) : factor divideMass M a b ≠ 0 := by
  have h : ∀ c, (Real.sqrt (M c) : ℂ) ≠ 0 := fun c => by exact_mod_cast (Real.sqrt_pos.2 (hM c)).ne'
  cases divideMass <;> simp [factor, h]

theorem toFlfrc_eq (size : Nat) (hsize : 0 < size) (n1 n2 n3 : Nat) (divideMass : Bool) (M : Fin n → ℝ) (l : List (Entry n)) :
    toFlfrc size n1 n2 n3 divideMass M l = some fun a b m x y =>
      (l.map (part n1 n2 n3 a b m x y)).sum * factor divideMass M a b := by
  obtain ⟨sizes, bounds, hd, hr, -⟩ := C02_bounds_ranges l.length size hsize
  rw [toFlfrc, hd, Option.map_some]
  congr 1
  have key : ∀ (a b : Fin n) (m : V3) (x y : Fin 3), ∑ rank ∈ Finset.range size, rankPhid n1 n2 n3 l bounds rank a b m x y =
      (l.map (part n1 n2 n3 a b m x y)).sum := by
    intro a b m x y
    simp only [rankPhid, fold_eq, zero_add]
    rw [← sum_range_get, ← hr, List.map_flatMap, sum_flatMap', ← List.sum_toFinset _ List.nodup_range, List.toFinset_range]
  funext a b m x y
  cases divideMass
  · simp [factor, key]
  · simp only [if_true, mass_fold M _ (List.nodup_finRange n), key, List.mem_finRange, factor]
    ring

theorem bloch_mass (divideMass : Bool) (M : Fin n → ℝ) (l : List (Entry n)) (k : Fin 3 → ℝ) (a b : Fin n × Fin 3) :
    bloch (l.map fun e => (e.1, if divideMass then divideByMass M e.2 else e.2)) k a b =
      bloch l k a b / factor divideMass M a.1 b.1 := by
  unfold bloch
  rw [List.map_map, div_eq_mul_inv, ← List.sum_map_mul_right]
  congr 1
  apply List.map_congr_left
  intro e _
  cases divideMass
  · simp [factor]
  · simp only [Function.comp, if_true, C46_value, factor]
    ring

/-- Sum over classes of lattice vectors. -/
theorem sum_part (n1 n2 n3 : Nat) (h1 : 0 < n1) (h2 : 0 < n2) (h3 : 0 < n3) (l : List (Entry n)) (G : V3 → ℂ) (a b : Fin n)
    (x y : Fin 3) : ((mesh3 n1 n2 n3).map fun m => (l.map (part n1 n2 n3 a b m x y)).sum * G m).sum =
      (l.map fun e => e.2 (a, x) (b, y) * G (meshIndex (-1) n1 n2 n3 e.1)).sum := by
  simp only [← List.sum_map_mul_right]
  rw [list_sum_comm]
  congr 1
  apply List.map_congr_left
  intro e _
  rw [← sum_ite_mesh n1 n2 n3 (meshIndex (-1) n1 n2 n3 e.1) (meshIndex_isMesh (-1) n1 n2 n3 h1 h2 h3 e.1)
    fun m => e.2 (a, x) (b, y) * G m]
  congr 1
  apply List.map_congr_left
  intro m _
  simp only [part]
  split <;> simp

/-! ### Claims -/

/-- **C125**: A model read from the force constants which `to_flfrc` writes for an arbitrary mesh has the same dynamical matrices at all
points of this mesh as the original model, for any numbers of processes. -/
theorem C125_mesh (size size' : Nat) (hsize : 0 < size) (hsize' : 0 < size') (n1 n2 n3 : Nat) (h1 : 0 < n1) (h2 : 0 < n2)
    (h3 : 0 < n3) (at' : Fin 3 → Fin 3 → ℝ) (r : Fin n → Fin 3 → ℝ) (divideMass : Bool) (M : Fin n → ℝ) (hM : ∀ a, 0 < M a)
    (l : List (Entry n)) :
    ∃ phid l', toFlfrc size n1 n2 n3 divideMass M l = some phid ∧ fromFlfrc size' n1 n2 n3 at' r divideMass M phid = some l' ∧
      ∀ (k : V3) (a b : Fin n × Fin 3), bloch l' (meshK n1 n2 n3 k) a b = bloch l (meshK n1 n2 n3 k) a b := by
  obtain ⟨l', hl, hb⟩ := shortRange_bloch (c := 3) size' hsize' n1 n2 n3 h1 h2 h3 at' r (-1) (Or.inr rfl)
    (fun a b m x y => (l.map (part n1 n2 n3 a b m x y)).sum * factor divideMass M a b)
  refine ⟨_, _, toFlfrc_eq size hsize n1 n2 n3 divideMass M l, by rw [fromFlfrc, hl, Option.map_some], fun k a b => ?_⟩
  rw [bloch_mass, hb, div_eq_iff (factor_ne divideMass M hM _ _)]
  have e : ∀ m : V3, (l.map (part n1 n2 n3 a.1 b.1 m a.2 b.2)).sum * factor divideMass M a.1 b.1 *
      om3 n1 n2 n3 (-1 * m.1, -1 * m.2.1, -1 * m.2.2) k = (l.map (part n1 n2 n3 a.1 b.1 m a.2 b.2)).sum *
      (om3 n1 n2 n3 (-1 * m.1, -1 * m.2.1, -1 * m.2.2) k * factor divideMass M a.1 b.1) := fun m => by ring
  simp only [e]
  rw [sum_part n1 n2 n3 h1 h2 h3 l (fun m => om3 n1 n2 n3 (-1 * m.1, -1 * m.2.1, -1 * m.2.2) k * factor divideMass M a.1 b.1)]
  unfold bloch
  rw [← List.sum_map_mul_right]
  congr 1
  apply List.map_congr_left
  intro x _
  rw [phase_meshK, om3_meshIndex (-1) (Or.inr rfl) n1 n2 n3 h1 h2 h3 x.1 k]
  ring

/-- **C125**: For a model which itself has been read from force constants, `to_flfrc` with the original mesh writes exactly these
force constants again. -/
theorem C125_inverse (size size' : Nat) (hsize : 0 < size) (hsize' : 0 < size') (n1 n2 n3 : Nat) (h1 : 0 < n1) (h2 : 0 < n2)
    (h3 : 0 < n3) (at' : Fin 3 → Fin 3 → ℝ) (r : Fin n → Fin 3 → ℝ) (divideMass : Bool) (M : Fin n → ℝ) (hM : ∀ a, 0 < M a)
    (phid : Phid n) :
    ∃ l phid', fromFlfrc size n1 n2 n3 at' r divideMass M phid = some l ∧ toFlfrc size' n1 n2 n3 divideMass M l = some phid' ∧
      ∀ (a b : Fin n) (m : V3), IsMesh n1 n2 n3 m → phid' a b m = phid a b m := by
  refine ⟨_, _, by rw [fromFlfrc, shortRange, C02_parMap size hsize, Option.map_some], toFlfrc_eq size' hsize' n1 n2 n3 divideMass M _,
    fun a b m hm => ?_⟩
  funext x y
  set ws := wigner size n1 n2 n3 at' r r (1e-7) (-1) 2 with hws
  have key := sum_class (-1) (Or.inr rfl) n1 n2 n3 h1 h2 h3 a b (fun m' => if m' = m then phid a b m' x y else 0) ws
  have hw : ((mesh3 n1 n2 n3).map fun m' => (if m' = m then phid a b m' x y else 0) *
      ((weight3 (-1) n1 n2 n3 m' a b ws : ℚ) : ℂ)) = (mesh3 n1 n2 n3).map fun m' => if m' = m then phid a b m' x y else 0 := by
    apply List.map_congr_left
    intro m' hm'
    rw [hws, C27_wigner size hsize n1 n2 n3 at' r r (1e-7) (by norm_num) (-1) (Or.inr rfl) 2 (by norm_num) m'
      ((mem_mesh3 _ _ _ _).1 hm') a b]
    simp
  rw [hw, sum_ite_mesh n1 n2 n3 m hm] at key
  rw [List.map_map, List.map_map, ← List.sum_map_mul_right, ← key]
  congr 1
  apply List.map_congr_left
  intro e _
  have hf := factor_ne divideMass M hM a b
  have hv : (if divideMass then divideByMass M (constBlock (-1) n1 n2 n3 true phid e).2
      else (constBlock (-1) n1 n2 n3 true phid e).2) (a, x) (b, y) * factor divideMass M a b =
      (constBlock (-1) n1 n2 n3 true phid e).2 (a, x) (b, y) := by
    cases divideMass
    · simp [factor]
    · rw [if_pos rfl, C46_value]
      simp only [factor, if_true] at hf ⊢
      exact div_mul_cancel₀ _ hf
  simp only [Function.comp, part]
  have he : (constBlock (-1) n1 n2 n3 true phid e).1 = e.1 := rfl
  rw [he]
  by_cases hc : m = meshIndex (-1) n1 n2 n3 e.1
  · rw [if_pos hc, if_pos hc.symm, hv]
    simp only [constBlock, if_true]
    split
    · rfl
    · rename_i h0
      push Not at h0
      simp [h0]
  · rw [if_neg hc, if_neg (Ne.symm hc)]
    simp

/-- Force constants of a chain with springs to first and second neighbors. -/
noncomputable def chain : List (Entry 1) := [((0, 0, 0), fun _ _ => 3), ((1, 0, 0), fun _ _ => -1), ((-1, 0, 0), fun _ _ => -1),
  ((2, 0, 0), fun _ _ => -1 / 2), ((-2, 0, 0), fun _ _ => -1 / 2)]

/-- The springs to second neighbors in both directions are equivalent on a mesh of four points. -/
example : ∃ phid, toFlfrc 3 4 1 1 true (fun _ => 9) chain = some phid ∧ phid 0 0 (2, 0, 0) 0 0 = -9 ∧ phid 0 0 (3, 0, 0) 0 0 = -9 ∧
    phid 0 0 (0, 0, 0) 0 0 = 27 := by
  have h9 : Real.sqrt 9 = 3 := by rw [show (9 : ℝ) = 3 ^ 2 by norm_num, Real.sqrt_sq (by norm_num)]
  refine ⟨_, toFlfrc_eq 3 (by norm_num) 4 1 1 true _ chain, ?_, ?_, ?_⟩ <;>
    simp [chain, part, meshIndex, factor, h9] <;> norm_num

example : ∃ phid l', toFlfrc 3 4 1 1 true (fun _ => 9) chain = some phid ∧
    fromFlfrc 2 4 1 1 (fun i j => if i = j then 1 else 0) (fun _ _ => 0) true (fun _ => 9) phid = some l' ∧
      ∀ (k : V3) (a b : Fin 1 × Fin 3), bloch l' (meshK 4 1 1 k) a b = bloch chain (meshK 4 1 1 k) a b :=
  C125_mesh 3 2 (by norm_num) (by norm_num) 4 1 1 (by norm_num) (by norm_num) (by norm_num) _ _ true _ (fun _ => by norm_num) chain

example : ∃ l phid', fromFlfrc 2 4 1 1 (fun i j => if i = j then 1 else 0) (fun _ _ => 0) true (fun _ => 9)
      (fun (_ _ : Fin 1) m _ _ => m.1) = some l ∧ toFlfrc 3 4 1 1 true (fun _ => 9) l = some phid' ∧
    ∀ (a b : Fin 1) (m : V3), IsMesh 4 1 1 m → phid' a b m = fun _ _ => (m.1 : ℂ) :=
  C125_inverse 2 3 (by norm_num) (by norm_num) 4 1 1 (by norm_num) (by norm_num) (by norm_num) _ _ true _ (fun _ => by norm_num) _

end Verif.ToFlfrc
