import Verif.Bravais.Props
import Mathlib.Data.List.Sort
import Mathlib.Data.List.GetD
import Mathlib.Tactic.IntervalCases

/-!
# PWscf input from models: `ph.Model.to_pwi` and `md.Driver.to_pwi`

The dictionary passed to `write_pwi` (see C122 for the text) is represented by a structure. Real numbers are exact. The order of a Python set is
arbitrary.
-/

namespace Verif.Phon.ToPwi

open Verif.Bravais

/-- The dictionary `pw`. -/
structure Pw where
  ibrav : Int
  ntyp : Nat
  nat : Nat
  celldm : List ℝ
  atSpecies : List String
  mass : List ℝ
  pp : List String
  coords : String
  at' : List String
  r : List R3
  cellUnits : String
  rCell : M3
  ktyp : Option String
  kPoints : Option (List Nat)

/-- `elphmod/ph.py` 941-942: `sorted(set(self.atom_order), key=self.atom_order.index)`, where `set` lists the elements of the set. -/
def species (atomOrder set : List String) : List String := set.mergeSort fun X Y => decide (atomOrder.idxOf X ≤ atomOrder.idxOf Y)

/-- `elphmod/ph.py` 931-965 (`to_pwi`, dictionary); `update` stands for `pw.update(kwargs)`. -/
noncomputable def toPwi (inv : M3 → M3) (uRy : ℝ) (a : M3) (r : List R3) (M : List ℝ) (atomOrder set : List String) (update : Pw → Pw) : Pw :=
  let species := species atomOrder set
  let alat := Real.sqrt (dot3 (a 0) (a 0))
  update {
    ibrav := 0
    ntyp := species.length
    nat := atomOrder.length
    celldm := [alat]
    atSpecies := species
    mass := species.map fun X => M.getD (atomOrder.idxOf X) 0 / uRy
    pp := species.map fun X => X ++ ".upf"
    coords := "crystal"
    at' := atomOrder
    r := r.map (cartesianToCrystal inv (a 0) (a 1) (a 2))
    cellUnits := "alat"
    rCell := fun i j => a i j / alat
    ktyp := none
    kPoints := none }

/-- `elphmod/md.py` 800-823 (`to_pwi`, dictionary): `u` are the displacements of the atoms, `nk` is the k mesh. -/
noncomputable def mdToPwi (inv : M3 → M3) (uRy : ℝ) (a : M3) (r : List R3) (M : List ℝ) (atomOrder set : List String) (u : List R3)
    (nk : Nat × Nat × Nat) (update : Pw → Pw) : Pw :=
  toPwi inv uRy a r M atomOrder set fun pw =>
    let pw := { pw with r := (List.zipWith (fun (r u : R3) => (fun x => r x + u x : R3)) r u).map (cartesianToCrystal inv (a 0) (a 1) (a 2)) }
    update (if nk.1 * nk.2.1 * nk.2.2 = 1 then { pw with ktyp := some "gamma" }
      else { pw with ktyp := some "automatic", kPoints := some [nk.1, nk.2.1, nk.2.2, 0, 0, 0] })

/-! ### Properties -/

/-- A list of the elements of a set (specification). -/
def Lists (set atomOrder : List String) : Prop := set.Nodup ∧ ∀ X, X ∈ set ↔ X ∈ atomOrder

theorem species_perm (atomOrder set : List String) : (species atomOrder set).Perm set := List.mergeSort_perm _ _

theorem species_pairwise (atomOrder set : List String) : (species atomOrder set).Pairwise fun X Y => atomOrder.idxOf X ≤ atomOrder.idxOf Y := by
  have := List.pairwise_mergeSort (le := fun X Y => decide (atomOrder.idxOf X ≤ atomOrder.idxOf Y)) (by
    intro a b c h1 h2
    simp only [decide_eq_true_eq] at *
    omega) (by
    intro a b
    simp only [Bool.or_eq_true, decide_eq_true_eq]
    omega) set
  exact this.imp fun h => by simpa using h

/-- C146: species are listed once each, in the order of their first atoms. -/
theorem C146_species (atomOrder set : List String) (h : Lists set atomOrder) :
    (species atomOrder set).Nodup ∧ (∀ X, X ∈ species atomOrder set ↔ X ∈ atomOrder) ∧
      (species atomOrder set).Pairwise fun X Y => atomOrder.idxOf X < atomOrder.idxOf Y := by
  have hp := species_perm atomOrder set
  have hn : (species atomOrder set).Nodup := hp.nodup_iff.2 h.1
  have hm : ∀ X, X ∈ species atomOrder set ↔ X ∈ atomOrder := fun X => by rw [hp.mem_iff, h.2]
  refine ⟨hn, hm, ?_⟩
  refine ((species_pairwise atomOrder set).and hn).imp_of_mem ?_
  intro X Y hX hY ⟨h1, h2⟩
  refine lt_of_le_of_ne h1 fun he => h2 ?_
  exact (List.idxOf_inj ((hm X).1 hX)).1 he

/-- C146: the result does not depend on the order of the set, which differs between runs of Python. -/
theorem C146_set (inv : M3 → M3) (uRy : ℝ) (a : M3) (r : List R3) (M : List ℝ) (atomOrder set set' : List String) (update : Pw → Pw)
    (h : Lists set atomOrder) (h' : Lists set' atomOrder) :
    toPwi inv uRy a r M atomOrder set update = toPwi inv uRy a r M atomOrder set' update := by
  have : species atomOrder set = species atomOrder set' := by
    obtain ⟨h1, h2, h3⟩ := C146_species atomOrder set h
    obtain ⟨h1', h2', h3'⟩ := C146_species atomOrder set' h'
    refine List.Perm.eq_of_pairwise ?_ h3 h3' ((List.perm_ext_iff_of_nodup h1 h1').2 fun X => by rw [h2, h2'])
    intro X Y _ _ h h'
    omega
  unfold toPwi
  rw [this]

/-- Lattice vectors in the file: those in units of the lattice constant (specification). -/
def cell (pw : Pw) (alat : ℝ) : M3 := fun i j => alat * pw.rCell i j

/-- C146: lattice vectors and positions in the file are those of the model. -/
theorem C146_structure (inv : M3 → M3) (hinv : IsInv inv) (uRy : ℝ) (a : M3) (ha : dot3 (a 0) (cross (a 1) (a 2)) ≠ 0) (r : List R3) (M : List ℝ)
    (atomOrder set : List String) :
    ∃ alat, (toPwi inv uRy a r M atomOrder set id).celldm = [alat] ∧ 0 < alat ∧ cell (toPwi inv uRy a r M atomOrder set id) alat = a ∧
      (toPwi inv uRy a r M atomOrder set id).r.map (fun c => fun x => c 0 * cell (toPwi inv uRy a r M atomOrder set id) alat 0 x +
        c 1 * cell (toPwi inv uRy a r M atomOrder set id) alat 1 x + c 2 * cell (toPwi inv uRy a r M atomOrder set id) alat 2 x) = r := by
  have hpos : 0 < Real.sqrt (dot3 (a 0) (a 0)) := by
    rw [Real.sqrt_pos]
    rcases lt_or_eq_of_le (show 0 ≤ dot3 (a 0) (a 0) by unfold dot3; nlinarith [mul_self_nonneg (a 0 0), mul_self_nonneg (a 0 1), mul_self_nonneg (a 0 2)])
      with h | h
    · exact h
    · exfalso
      apply ha
      unfold dot3 at h ⊢
      have h0 := mul_self_nonneg (a 0 0)
      have h1 := mul_self_nonneg (a 0 1)
      have h2 := mul_self_nonneg (a 0 2)
      have e0 : a 0 0 = 0 := by apply mul_self_eq_zero.1; linarith
      have e1 : a 0 1 = 0 := by apply mul_self_eq_zero.1; linarith
      have e2 : a 0 2 = 0 := by apply mul_self_eq_zero.1; linarith
      rw [e0, e1, e2]
      ring
  have hc : cell (toPwi inv uRy a r M atomOrder set id) (Real.sqrt (dot3 (a 0) (a 0))) = a := by
    funext i j
    simp only [cell, toPwi, id]
    field_simp
  refine ⟨_, rfl, hpos, hc, ?_⟩
  rw [hc]
  simp only [toPwi, id, List.map_map]
  conv_rhs => rw [← List.map_id r]
  refine List.map_congr_left fun x _ => ?_
  exact (C30_coordinates inv hinv (a 0) (a 1) (a 2) ha x).2

/-- Mass of atom `i` according to the file: that of its species (specification). -/
def massOf (pw : Pw) (i : Nat) : Option ℝ := do
  let X ← pw.at'[i]?
  pw.mass[pw.atSpecies.idxOf X]?

theorem massOf_eq (inv : M3 → M3) (uRy : ℝ) (a : M3) (r : List R3) (M : List ℝ) (atomOrder set : List String) (h : Lists set atomOrder) (i : Nat)
    (hi : i < atomOrder.length) :
    massOf (toPwi inv uRy a r M atomOrder set id) i = some (M.getD (atomOrder.idxOf atomOrder[i]) 0 / uRy) := by
  obtain ⟨-, h2, -⟩ := C146_species atomOrder set h
  have hm : atomOrder[i] ∈ species atomOrder set := (h2 _).2 (List.getElem_mem hi)
  unfold massOf toPwi
  simp only [id]
  rw [List.getElem?_eq_getElem hi]
  simp only [Option.bind_eq_bind, Option.bind_some]
  rw [List.getElem?_map, List.getElem?_eq_getElem (List.idxOf_lt_length_of_mem hm)]
  simp

/-- C146: masses in the file are those of the atoms if atoms of the same name have the same mass. -/
theorem C146_mass_partial (inv : M3 → M3) (uRy : ℝ) (hu : uRy ≠ 0) (a : M3) (r : List R3) (M : List ℝ) (atomOrder set : List String)
    (h : Lists set atomOrder) (hM : M.length = atomOrder.length)
    (hs : ∀ i j (hi : i < atomOrder.length) (hj : j < atomOrder.length), atomOrder[i] = atomOrder[j] → M[i] = M[j]) (i : Nat) (hi : i < atomOrder.length) :
    ∃ m, massOf (toPwi inv uRy a r M atomOrder set id) i = some m ∧ m * uRy = M[i] := by
  refine ⟨_, massOf_eq inv uRy a r M atomOrder set h i hi, ?_⟩
  have hl : atomOrder.idxOf atomOrder[i] < atomOrder.length := List.idxOf_lt_length_of_mem (List.getElem_mem hi)
  rw [div_mul_cancel₀ _ hu, List.getD_eq_getElem _ _ (by omega)]
  exact hs _ _ hl hi (List.getElem_idxOf hl)

/-- C146 fails for isotopes with the same name: all atoms have the mass of the first one. -/
theorem C146_mass_violated (inv : M3 → M3) (uRy : ℝ) (hu : uRy ≠ 0) (a : M3) (r : List R3) (X : String) (m m' : ℝ) (hm : m ≠ m') :
    ∃ m'', massOf (toPwi inv uRy a r [m, m'] [X, X] [X] id) 1 = some m'' ∧ m'' * uRy ≠ m' := by
  refine ⟨_, massOf_eq inv uRy a r [m, m'] [X, X] [X] ⟨List.nodup_singleton _, by simp⟩ 1 (by simp), ?_⟩
  rw [div_mul_cancel₀ _ hu]
  simpa using hm

/-- C146: the input of a driver has the displaced positions and the k mesh; other parameters are those of the phonon model. -/
theorem C146_md (inv : M3 → M3) (hinv : IsInv inv) (uRy : ℝ) (a : M3) (ha : dot3 (a 0) (cross (a 1) (a 2)) ≠ 0) (r u : List R3) (M : List ℝ)
    (atomOrder set : List String) (n1 n2 n3 : Nat) :
    (mdToPwi inv uRy a r M atomOrder set u (n1, n2, n3) id).r.map (crystalToCartesian (a 0) (a 1) (a 2)) =
        List.zipWith (fun (r u : R3) => (fun x => r x + u x : R3)) r u ∧
      (mdToPwi inv uRy a r M atomOrder set u (n1, n2, n3) id).ktyp = (if n1 = 1 ∧ n2 = 1 ∧ n3 = 1 then some "gamma" else some "automatic") ∧
      (mdToPwi inv uRy a r M atomOrder set u (n1, n2, n3) id).kPoints = (if n1 = 1 ∧ n2 = 1 ∧ n3 = 1 then none else some [n1, n2, n3, 0, 0, 0]) ∧
      (mdToPwi inv uRy a r M atomOrder set u (n1, n2, n3) id).rCell = (toPwi inv uRy a r M atomOrder set id).rCell ∧
      (mdToPwi inv uRy a r M atomOrder set u (n1, n2, n3) id).mass = (toPwi inv uRy a r M atomOrder set id).mass ∧
      (mdToPwi inv uRy a r M atomOrder set u (n1, n2, n3) id).at' = (toPwi inv uRy a r M atomOrder set id).at' := by
  have hr : ∀ l : List R3, (l.map (cartesianToCrystal inv (a 0) (a 1) (a 2))).map (crystalToCartesian (a 0) (a 1) (a 2)) = l := by
    intro l
    rw [List.map_map]
    conv_rhs => rw [← List.map_id l]
    refine List.map_congr_left fun x _ => ?_
    exact (C30_coordinates inv hinv (a 0) (a 1) (a 2) ha x).2
  have hk : n1 * n2 * n3 = 1 ↔ n1 = 1 ∧ n2 = 1 ∧ n3 = 1 := by
    rw [mul_eq_one, mul_eq_one, and_assoc]
  by_cases h : n1 = 1 ∧ n2 = 1 ∧ n3 = 1
  · simp only [mdToPwi, toPwi, id, if_pos (hk.2 h), if_pos h]
    exact ⟨hr _, by simp⟩
  · simp only [mdToPwi, toPwi, id, if_neg (fun h' => h (hk.1 h')), if_neg h]
    exact ⟨hr _, by simp⟩

/-! ### Examples -/

theorem exampleLists : Lists ["Se", "Nb"] ["Nb", "Se", "Se"] := ⟨by decide, by intro X; simp; tauto⟩

theorem exampleLists' : Lists ["Nb", "Se"] ["Nb", "Se", "Se"] := ⟨by decide, by intro X; simp⟩

example : species ["Nb", "Se", "Se"] ["Se", "Nb"] = ["Nb", "Se"] := by
  obtain ⟨-, -, h⟩ := C146_species _ _ exampleLists
  have hp := species_perm ["Nb", "Se", "Se"] ["Se", "Nb"]
  refine List.Perm.eq_of_pairwise (le := fun X Y => List.idxOf X ["Nb", "Se", "Se"] < List.idxOf Y ["Nb", "Se", "Se"]) ?_ h (by decide)
    (hp.trans (List.Perm.swap ..))
  intro X Y _ _ h h'
  omega

example (inv : M3 → M3) (a : M3) (r : List R3) := C146_set inv 911 a r [1, 2, 2] _ _ _ id exampleLists exampleLists'

example (inv : M3 → M3) (hinv : IsInv inv) (r : List R3) := C146_structure inv hinv 911 ![![3, 0, 0], ![0, 4, 0], ![0, 0, 5]] (by
  simp [dot3, cross]) r [1, 2, 2] ["Nb", "Se", "Se"] ["Nb", "Se"]

example (inv : M3 → M3) (a : M3) (r : List R3) :=
  C146_mass_partial inv 911 (by norm_num) a r [1, 2, 2] _ _ exampleLists rfl (by
    intro i j hi hj h
    simp only [List.length_cons, List.length_nil] at hi hj
    interval_cases i <;> interval_cases j <;> simp_all) 2 (by simp)

example (inv : M3 → M3) (a : M3) (r : List R3) := C146_mass_violated inv 911 (by norm_num) a r "H" 1 2 (by norm_num)

example (inv : M3 → M3) (hinv : IsInv inv) (r u : List R3) := C146_md inv hinv 911 ![![3, 0, 0], ![0, 4, 0], ![0, 0, 5]] (by
  simp [dot3, cross]) r u [1, 2, 2] ["Nb", "Se", "Se"] ["Nb", "Se"] 2 2 1

end Verif.Phon.ToPwi
