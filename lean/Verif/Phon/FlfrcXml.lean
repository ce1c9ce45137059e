import Verif.Bravais.Model
import Verif.Readers.Model
import Mathlib.Data.Complex.Basic
import Mathlib.Tactic.FinCases

/-!
# Force constants and dynamical matrices from XML files: `ph.read_flfrc_xml`

The parsed XML tree is the argument; parsing (`ElementTree`) and the repair of files with wrong closing tags (lines 1443-1457) are not modelled. Numbers in
files are rational. Exceptions are `none`.
-/

namespace Verif.FlfrcXml

open Verif.Text (Str words readFloat readInt showNat)
open Verif.Bravais

/-! ### Model -/

/-- Element of a parsed XML tree. -/
inductive Elem
  | mk (tag : Str) (attrib : List (Str × Str)) (text : Option Str) (children : List Elem)

namespace Elem

def tag : Elem → Str
  | mk t _ _ _ => t

def attrib : Elem → List (Str × Str)
  | mk _ a _ _ => a

def text : Elem → Option Str
  | mk _ _ t _ => t

def children : Elem → List Elem
  | mk _ _ _ c => c

/-- `e.find(tag)`: first child with this tag. -/
def find (e : Elem) (tag : Str) : Option Elem := e.children.find? fun c => c.tag == tag

end Elem

/-- `list(map(float, e.text.split()))` -/
def floats (e : Elem) : Option (List ℚ) := e.text.bind fun t => (words t).mapM readFloat

/-- `int(e.text)`, surrounding white space is ignored. -/
def int (e : Elem) : Option Int := e.text.bind fun t => match words t with
  | [w] => readInt w
  | _ => none

/-- `float(e.text)`, surrounding white space is ignored. -/
def float (e : Elem) : Option ℚ := e.text.bind fun t => match words t with
  | [w] => readFloat w
  | _ => none

/-- `np.reshape(x, (3, 3))` -/
def reshape33 {α : Type} : List α → Option (Fin 3 → Fin 3 → α)
  | [a, b, c, d, e, f, g, h, i] => some ![![a, b, c], ![d, e, f], ![g, h, i]]
  | _ => none

/-- Transpose. -/
def transpose {α : Type} (m : Fin 3 → Fin 3 → α) : Fin 3 → Fin 3 → α := fun i j => m j i

/-- Assignment of a list of numbers to a row with three elements (a single number is broadcast). -/
def row3 : List ℚ → Option (Fin 3 → ℚ)
  | [x, y, z] => some ![x, y, z]
  | [x] => some ![x, x, x]
  | _ => none

/-- Result, where force constants are listed with their indices `(na1, na2, m1, m2, m3)` and dynamical matrices with their atoms. -/
structure Out where
  phid : List ((Nat × Nat × Nat × Nat × Nat) × (Fin 3 → Fin 3 → ℝ)) ⊕ List ((Fin 3 → ℝ) × List ((Nat × Nat) × (Fin 3 → Fin 3 → ℂ)))
  amass : List ℝ
  at' : M3
  tau : List (Fin 3 → ℝ)
  atomOrder : List (Option Str)
  alph : Option ℚ
  epsil : Option (Fin 3 → Fin 3 → ℚ)
  zeu : Option (List (Fin 3 → Fin 3 → ℚ))

/-- Tag with an index, `'%s.%d' % (s, i)`. -/
def dotted (s : Str) (i : Nat) : Str := s ++ '.' :: showNat i

/-- `elphmod/ph.py` 1465-1471: lattice vectors; all six lattice parameters must be present (simplified). -/
noncomputable def lattice (geometry : Elem) (ibrav : Int) (celldm : List ℚ) : Option M3 :=
  if celldm.length < 6 then none
  else if ibrav ≠ 0 then latgen ibrav fun i => ((celldm.getD i.val 0 : ℚ) : ℝ)
  else (geometry.find "AT".toList).bind fun e => (floats e).bind fun l => (reshape33 l).map fun m i j => ((m i j * celldm.getD 0 0 : ℚ) : ℝ)

/-- `elphmod/ph.py` 1476-1478: name and mass of a type -/
def typeOf (geometry : Elem) (nt : Nat) : Option (Option Str × ℚ) :=
  (geometry.find (dotted "TYPE_NAME".toList (nt + 1))).bind fun e => (geometry.find (dotted "MASS".toList (nt + 1))).bind fun e' =>
    (float e').map fun m => (e.text, m)

/-- `elphmod/ph.py` 1483-1487: type and position of an atom -/
def atomOf (geometry : Elem) (na : Nat) : Option (Int × (Fin 3 → ℚ)) :=
  (geometry.find (dotted "ATOM".toList (na + 1))).bind fun e =>
    (e.attrib.lookup "INDEX".toList).bind fun i => (match words i with | [w] => readInt w | _ => none).bind fun i =>
      (e.attrib.lookup "TAU".toList).bind fun t => ((words t).mapM readFloat).bind fun t => (row3 t).map fun t => (i - 1, t)

/-- `elphmod/ph.py` 1500-1511: dielectric tensor and effective charges; the outer `none` is an exception. -/
def dielectric (root : Elem) (nat : Nat) : Option (Option (Fin 3 → Fin 3 → ℚ) × Option (List (Fin 3 → Fin 3 → ℚ))) :=
  (root.find "DIELECTRIC_PROPERTIES".toList).bind fun dielect =>
    (match dielect.find "EPSILON".toList with
      | none => some none
      | some e => ((floats e).bind reshape33).map some).bind fun epsil =>
    (match dielect.find "ZSTAR".toList with
      | none => some none
      | some e => ((List.range nat).mapM fun na => (e.find (dotted "Z_AT_".toList (na + 1))).bind fun z => (floats z).bind reshape33).map some).map fun zeu =>
      (epsil, zeu)

/-- `elphmod/ph.py` 1525-1529: order of the loops -/
def indices (nat nr1 nr2 nr3 : Nat) : List (Nat × Nat × Nat × Nat × Nat) :=
  (List.range nat).flatMap fun na1 => (List.range nat).flatMap fun na2 => (List.range nr3).flatMap fun m3 => (List.range nr2).flatMap fun m2 =>
    (List.range nr1).map fun m1 => (na1, na2, m1, m2, m3)

/-- `'s_s1_m1_m2_m3.%d.%d.%d.%d.%d' % (na1 + 1, na2 + 1, m1 + 1, m2 + 1, m3 + 1)` -/
def ifcTag (i : Nat × Nat × Nat × Nat × Nat) : Str :=
  dotted (dotted (dotted (dotted (dotted "s_s1_m1_m2_m3".toList (i.1 + 1)) (i.2.1 + 1)) (i.2.2.1 + 1)) (i.2.2.2.1 + 1)) (i.2.2.2.2 + 1)

/-- `elphmod/ph.py` 1530-1537: force constants for one pair of atoms -/
def ifcOf (ifc : Elem) (i : Nat × Nat × Nat × Nat × Nat) : Option ((Nat × Nat × Nat × Nat × Nat) × (Fin 3 → Fin 3 → ℝ)) :=
  (ifc.find (ifcTag i)).bind fun e => (e.find "IFC".toList).bind fun e => (floats e).bind fun l => (reshape33 l).map fun m =>
    (i, fun x y => ((transpose m x y : ℚ) : ℝ))

/-- `tmp[0::2] + 1j * tmp[1::2]`; different lengths raise an exception. -/
noncomputable def complexes : List ℚ → Option (List ℂ)
  | [] => some []
  | re :: im :: l => (complexes l).map fun r => ((re : ℂ) + Complex.I * (im : ℂ)) :: r
  | [_] => none

/-- `elphmod/ph.py` 1549-1556: dynamical matrix of one point -/
noncomputable def dynOf (root : Elem) (nat : Nat) (alat : ℚ) (iq : Nat) : Option ((Fin 3 → ℝ) × List ((Nat × Nat) × (Fin 3 → Fin 3 → ℂ))) :=
  (root.find (dotted "DYNAMICAL_MAT_".toList (iq + 1))).bind fun dynmat =>
    (dynmat.find "Q_POINT".toList).bind fun e => (floats e).bind fun l => (row3 l).bind fun q =>
    ((List.range nat).flatMap fun na1 => (List.range nat).map fun na2 => (na1, na2)).mapM (fun p =>
      (dynmat.find (dotted (dotted "PHI".toList (p.1 + 1)) (p.2 + 1))).bind fun e => (floats e).bind fun l => (complexes l).bind fun l =>
        (reshape33 l).map fun m => (p, transpose m)) |>.map fun D => (fun x => (q x : ℝ) * (2 * Real.pi / (alat : ℝ)), D)

/-- `elphmod/ph.py` 1513-1556: force constants or dynamical matrices and Ewald parameter -/
noncomputable def forces (root geometry : Elem) (nat : Nat) (alat : ℚ) :
    Option ((List ((Nat × Nat × Nat × Nat × Nat) × (Fin 3 → Fin 3 → ℝ)) ⊕ List ((Fin 3 → ℝ) × List ((Nat × Nat) × (Fin 3 → Fin 3 → ℂ)))) × Option ℚ) :=
  match root.find "INTERATOMIC_FORCE_CONSTANTS".toList with
  | some ifc =>
    (match ifc.find "alpha_ewald".toList with
      | none => some none
      | some e => (float e).map some).bind fun alph =>
    (ifc.find "MESH_NQ1_NQ2_NQ3".toList).bind fun e => e.text.bind fun t => match (words t).mapM readInt with
      | some [nr1, nr2, nr3] =>
        if nr1 < 0 ∨ nr2 < 0 ∨ nr3 < 0 then none
        else ((indices nat nr1.toNat nr2.toNat nr3.toNat).mapM (ifcOf ifc)).map fun l => (Sum.inl l, alph)
      | _ => none
  | none =>
    (geometry.find "NUMBER_OF_Q".toList).bind fun e => (int e).bind fun nq => if nq < 0 then none
      else ((List.range nq.toNat).mapM (dynOf root nat alat)).map fun l => (Sum.inr l, none)

/-- `elphmod/ph.py` 1433-1559 (`read_flfrc_xml`) for a parsed file. The truth value of `ifc` in line 1558 is true as the element has children. -/
noncomputable def readFlfrcXml (uRy : ℝ) (root : Elem) : Option Out :=
  (root.find "GEOMETRY_INFO".toList).bind fun geometry =>
  ((geometry.find "NUMBER_OF_TYPES".toList).bind int).bind fun ntyp => ((geometry.find "NUMBER_OF_ATOMS".toList).bind int).bind fun nat =>
  ((geometry.find "BRAVAIS_LATTICE_INDEX".toList).bind int).bind fun ibrav => ((geometry.find "CELL_DIMENSIONS".toList).bind floats).bind fun celldm =>
  (lattice geometry ibrav celldm).bind fun at' =>
  if ntyp < 0 ∨ nat < 0 then none
  else ((List.range ntyp.toNat).mapM (typeOf geometry)).bind fun types => ((List.range nat.toNat).mapM (atomOf geometry)).bind fun atoms =>
    (atoms.mapM fun a : Int × (Fin 3 → ℚ) => (Verif.Text.pyIndex types.length a.1).bind fun k => types[k]?).bind fun kinds =>
    (dielectric root nat.toNat).bind fun dielect => (forces root geometry nat.toNat (celldm.getD 0 0)).map fun f =>
      { phid := f.1
        amass := kinds.map fun k => ((k.2 : ℚ) : ℝ) * uRy
        at' := at'
        tau := atoms.map fun a => fun x => ((a.2 x * celldm.getD 0 0 : ℚ) : ℝ)
        atomOrder := kinds.map fun k => k.1
        alph := f.2
        epsil := dielect.1
        zeu := dielect.2 }

/-! ### Specification -/

/-- The only child with a certain tag. -/
def Only (e : Elem) (tag : Str) (c : Elem) : Prop := c ∈ e.children ∧ c.tag = tag ∧ ∀ c' ∈ e.children, c'.tag = tag → c' = c

/-- There is no child with a certain tag. -/
def Absent (e : Elem) (tag : Str) : Prop := ∀ c ∈ e.children, c.tag ≠ tag

/-- The element contains certain numbers. -/
def HasFloats (e : Elem) (xs : List ℚ) : Prop := ∃ t, e.text = some t ∧ (words t).mapM readFloat = some xs

def HasInt (e : Elem) (n : Int) : Prop := ∃ t w, e.text = some t ∧ words t = [w] ∧ readInt w = some n

def HasFloat (e : Elem) (x : ℚ) : Prop := ∃ t w, e.text = some t ∧ words t = [w] ∧ readFloat w = some x

/-- Elements of a matrix, first index first (Fortran). -/
def fortran {α : Type} (m : Fin 3 → Fin 3 → α) : List α := [m 0 0, m 1 0, m 2 0, m 0 1, m 1 1, m 2 1, m 0 2, m 1 2, m 2 2]

/-- Elements of a matrix row by row. -/
def byRow {α : Type} (m : Fin 3 → Fin 3 → α) : List α := [m 0 0, m 0 1, m 0 2, m 1 0, m 1 1, m 1 2, m 2 0, m 2 1, m 2 2]

/-- Structure in the file. -/
structure Data where
  ntyp : Nat
  nat : Nat
  ibrav : Int
  celldm : Fin 6 → ℚ
  cell : Fin 3 → Fin 3 → ℚ
  name : Nat → Str
  mass : Nat → ℚ
  kind : Nat → Nat
  tau : Nat → Fin 3 → ℚ
  epsil : Option (Fin 3 → Fin 3 → ℚ)
  zeu : Option (Nat → Fin 3 → Fin 3 → ℚ)

/-- Lattice vectors in bohr. -/
noncomputable def Data.lattice (d : Data) : Option M3 :=
  if d.ibrav = 0 then some fun i j => (d.cell i j : ℝ) * (d.celldm 0 : ℝ) else latgen d.ibrav fun i => (d.celldm i : ℝ)

/-- The file has this crystal structure. -/
def HasGeometry (root g : Elem) (d : Data) : Prop :=
  Only root "GEOMETRY_INFO".toList g ∧ (∃ e, Only g "NUMBER_OF_TYPES".toList e ∧ HasInt e d.ntyp) ∧
  (∃ e, Only g "NUMBER_OF_ATOMS".toList e ∧ HasInt e d.nat) ∧ (∃ e, Only g "BRAVAIS_LATTICE_INDEX".toList e ∧ HasInt e d.ibrav) ∧
  (∃ e, Only g "CELL_DIMENSIONS".toList e ∧ HasFloats e [d.celldm 0, d.celldm 1, d.celldm 2, d.celldm 3, d.celldm 4, d.celldm 5]) ∧
  (d.ibrav = 0 → ∃ e, Only g "AT".toList e ∧ HasFloats e (byRow d.cell)) ∧
  (∀ nt < d.ntyp, (∃ e, Only g ("TYPE_NAME.".toList ++ showNat (nt + 1)) e ∧ e.text = some (d.name nt)) ∧
    ∃ e, Only g ("MASS.".toList ++ showNat (nt + 1)) e ∧ HasFloat e (d.mass nt)) ∧
  ∀ na < d.nat, d.kind na < d.ntyp ∧ ∃ e i w t, Only g ("ATOM.".toList ++ showNat (na + 1)) e ∧ e.attrib.lookup "INDEX".toList = some i ∧ words i = [w] ∧
    readInt w = some ((d.kind na : Int) + 1) ∧ e.attrib.lookup "TAU".toList = some t ∧ (words t).mapM readFloat = some [d.tau na 0, d.tau na 1, d.tau na 2]

/-- The file has this dielectric tensor and effective charges. -/
def HasDielectric (root : Elem) (d : Data) : Prop :=
  ∃ e, Only root "DIELECTRIC_PROPERTIES".toList e ∧
    (match d.epsil with
      | none => Absent e "EPSILON".toList
      | some m => ∃ c, Only e "EPSILON".toList c ∧ HasFloats c (byRow m)) ∧
    match d.zeu with
      | none => Absent e "ZSTAR".toList
      | some z => ∃ c, Only e "ZSTAR".toList c ∧ ∀ na < d.nat, ∃ c', Only c ("Z_AT_.".toList ++ showNat (na + 1)) c' ∧ HasFloats c' (byRow (z na))

/-- The file has these force constants. -/
def HasIfc (root : Elem) (nat nr1 nr2 nr3 : Nat) (alph : Option ℚ) (phi : Nat → Nat → Nat → Nat → Nat → Fin 3 → Fin 3 → ℚ) : Prop :=
  ∃ ifc, Only root "INTERATOMIC_FORCE_CONSTANTS".toList ifc ∧
    (match alph with
      | none => Absent ifc "alpha_ewald".toList
      | some x => ∃ c, Only ifc "alpha_ewald".toList c ∧ HasFloat c x) ∧
    (∃ c t, Only ifc "MESH_NQ1_NQ2_NQ3".toList c ∧ c.text = some t ∧ (words t).mapM readInt = some [(nr1 : Int), (nr2 : Int), (nr3 : Int)]) ∧
    ∀ na1 < nat, ∀ na2 < nat, ∀ m1 < nr1, ∀ m2 < nr2, ∀ m3 < nr3, ∃ c c',
      Only ifc ("s_s1_m1_m2_m3.".toList ++ showNat (na1 + 1) ++ '.' :: showNat (na2 + 1) ++ '.' :: showNat (m1 + 1) ++ '.' :: showNat (m2 + 1) ++
        '.' :: showNat (m3 + 1)) c ∧ Only c "IFC".toList c' ∧ HasFloats c' (fortran (phi na1 na2 m1 m2 m3))

/-- The file has these q points in units of `2 pi / alat` and dynamical matrices (real and imaginary parts). -/
def HasDyn (root g : Elem) (nat nq : Nat) (q : Nat → Fin 3 → ℚ) (re im : Nat → Nat → Nat → Fin 3 → Fin 3 → ℚ) : Prop :=
  Absent root "INTERATOMIC_FORCE_CONSTANTS".toList ∧ (∃ e, Only g "NUMBER_OF_Q".toList e ∧ HasInt e nq) ∧
    ∀ iq < nq, ∃ e, Only root ("DYNAMICAL_MAT_.".toList ++ showNat (iq + 1)) e ∧
      (∃ c, Only e "Q_POINT".toList c ∧ HasFloats c [q iq 0, q iq 1, q iq 2]) ∧
      ∀ na1 < nat, ∀ na2 < nat, ∃ c, Only e ("PHI.".toList ++ showNat (na1 + 1) ++ '.' :: showNat (na2 + 1)) c ∧
        HasFloats c ((fortran fun x y => [re iq na1 na2 x y, im iq na1 na2 x y]).flatten)

/-! ### Proofs -/

theorem find_only {e c : Elem} {tag : Str} (h : Only e tag c) : e.find tag = some c := by
  obtain ⟨h1, h2, h3⟩ := h
  unfold Elem.find
  cases hf : e.children.find? fun c => c.tag == tag with
  | none =>
    rw [List.find?_eq_none] at hf
    exact absurd (by simpa using h2) (hf c h1)
  | some c' =>
    have := List.find?_some hf
    rw [h3 c' (List.mem_of_find?_eq_some hf) (by simpa using this)]

theorem find_absent {e : Elem} {tag : Str} (h : Absent e tag) : e.find tag = none := by
  unfold Elem.find
  rw [List.find?_eq_none]
  intro c hc
  simpa using h c hc

theorem floats_eq {e : Elem} {xs : List ℚ} (h : HasFloats e xs) : floats e = some xs := by
  obtain ⟨t, h1, h2⟩ := h
  rw [floats, h1, Option.bind_some, h2]

theorem int_eq {e : Elem} {n : Int} (h : HasInt e n) : int e = some n := by
  obtain ⟨t, w, h1, h2, h3⟩ := h
  simp only [int, h1, Option.bind_some, h2, h3]

theorem float_eq {e : Elem} {x : ℚ} (h : HasFloat e x) : float e = some x := by
  obtain ⟨t, w, h1, h2, h3⟩ := h
  simp only [float, h1, Option.bind_some, h2, h3]

theorem mapM_eq {α β : Type} (l : List α) (f : α → Option β) (g : α → β) (h : ∀ a ∈ l, f a = some (g a)) : l.mapM f = some (l.map g) := by
  induction l with
  | nil => rfl
  | cons a l ih => simp [h a List.mem_cons_self, ih fun a ha => h a (List.mem_cons_of_mem _ ha)]

theorem matrix_ext {α : Type} (m : Fin 3 → Fin 3 → α) :
    m = ![![m 0 0, m 0 1, m 0 2], ![m 1 0, m 1 1, m 1 2], ![m 2 0, m 2 1, m 2 2]] := by
  funext i j
  fin_cases i <;> fin_cases j <;> rfl

theorem reshape_byRow {α : Type} (m : Fin 3 → Fin 3 → α) : reshape33 (byRow m) = some m := by
  rw [byRow, reshape33, ← matrix_ext]

theorem reshape_fortran {α : Type} (m : Fin 3 → Fin 3 → α) : reshape33 (fortran m) = some (transpose m) := by
  conv_rhs => rw [matrix_ext (transpose m)]
  rfl

theorem row3_eq (v : Fin 3 → ℚ) : row3 [v 0, v 1, v 2] = some v := by
  rw [row3]
  congr 1
  funext i
  fin_cases i <;> rfl

theorem complexes_fortran (re im : Fin 3 → Fin 3 → ℚ) :
    complexes ((fortran fun x y => [re x y, im x y]).flatten) = some (fortran fun x y => (re x y : ℂ) + Complex.I * (im x y : ℂ)) := by
  simp [fortran, complexes]

theorem mem_indices (nat nr1 nr2 nr3 : Nat) (i : Nat × Nat × Nat × Nat × Nat) :
    i ∈ indices nat nr1 nr2 nr3 ↔ i.1 < nat ∧ i.2.1 < nat ∧ i.2.2.1 < nr1 ∧ i.2.2.2.1 < nr2 ∧ i.2.2.2.2 < nr3 := by
  obtain ⟨na1, na2, m1, m2, m3⟩ := i
  simp only [indices, List.mem_flatMap, List.mem_map, List.mem_range, Prod.mk.injEq]
  constructor
  · rintro ⟨a, ha, b, hb, c, hc, d, hd, e, he, rfl, rfl, rfl, rfl, rfl⟩
    exact ⟨ha, hb, he, hd, hc⟩
  · rintro ⟨ha, hb, he, hd, hc⟩
    exact ⟨na1, ha, na2, hb, m3, hc, m2, hd, m1, he, rfl, rfl, rfl, rfl, rfl⟩

theorem dielectric_eq {root : Elem} {d : Data} (h : HasDielectric root d) :
    dielectric root d.nat = some (d.epsil, d.zeu.map fun z => (List.range d.nat).map z) := by
  obtain ⟨e, he, h1, h2⟩ := h
  unfold dielectric
  rw [find_only he, Option.bind_some]
  have e1 : (match e.find "EPSILON".toList with
      | none => some none
      | some e => ((floats e).bind reshape33).map some) = some d.epsil := by
    cases hm : d.epsil with
    | none =>
      rw [hm] at h1
      rw [find_absent h1]
    | some m =>
      rw [hm] at h1
      obtain ⟨c, hc, hf⟩ := h1
      rw [find_only hc]
      simp only
      rw [floats_eq hf, Option.bind_some, reshape_byRow]
      rfl
  have e2 : (match e.find "ZSTAR".toList with
      | none => some none
      | some e => ((List.range d.nat).mapM fun na => (e.find (dotted "Z_AT_".toList (na + 1))).bind fun z => (floats z).bind reshape33).map some) =
      some (d.zeu.map fun z => (List.range d.nat).map z) := by
    cases hm : d.zeu with
    | none =>
      rw [hm] at h2
      rw [find_absent h2]
      rfl
    | some z =>
      rw [hm] at h2
      obtain ⟨c, hc, hf⟩ := h2
      rw [find_only hc]
      simp only
      rw [mapM_eq _ _ z]
      · rfl
      · intro na hna
        obtain ⟨c', hc', hf'⟩ := hf na (List.mem_range.1 hna)
        have hc'' : Only c (dotted "Z_AT_".toList (na + 1)) c' := hc'
        rw [find_only hc'', Option.bind_some, floats_eq hf', Option.bind_some, reshape_byRow]
  rw [e1, Option.bind_some, e2]
  rfl

/-- What is common to both kinds of files. -/
theorem readFlfrcXml_eq (uRy : ℝ) (root g : Elem) (d : Data) (hg : HasGeometry root g d) (hd : HasDielectric root d) (A : M3) (hA : d.lattice = some A) :
    readFlfrcXml uRy root = (forces root g d.nat (d.celldm 0)).map fun f =>
      { phid := f.1
        amass := (List.range d.nat).map fun na => (d.mass (d.kind na) : ℝ) * uRy
        at' := A
        tau := (List.range d.nat).map fun na => fun x => (d.tau na x : ℝ) * (d.celldm 0 : ℝ)
        atomOrder := (List.range d.nat).map fun na => some (d.name (d.kind na))
        alph := f.2
        epsil := d.epsil
        zeu := d.zeu.map fun z => (List.range d.nat).map z } := by
  obtain ⟨hgeo, ⟨e1, h1, h1'⟩, ⟨e2, h2, h2'⟩, ⟨e3, h3, h3'⟩, ⟨e4, h4, h4'⟩, hat, htyp, hatom⟩ := hg
  have hlat : lattice g d.ibrav [d.celldm 0, d.celldm 1, d.celldm 2, d.celldm 3, d.celldm 4, d.celldm 5] = some A := by
    unfold lattice
    rw [if_neg (by simp)]
    unfold Data.lattice at hA
    by_cases h0 : d.ibrav = 0
    · rw [if_pos h0] at hA
      obtain ⟨e, he, hf⟩ := hat h0
      rw [if_neg (by simpa using h0), find_only he, Option.bind_some, floats_eq hf, Option.bind_some, reshape_byRow, Option.map_some, ← hA]
      congr 1
      funext i j
      simp
    · rw [if_neg h0] at hA
      rw [if_pos h0, ← hA]
      congr 1
      funext i
      fin_cases i <;> rfl
  have htypes : (List.range d.ntyp).mapM (typeOf g) = some ((List.range d.ntyp).map fun nt => (some (d.name nt), d.mass nt)) := by
    refine mapM_eq _ _ _ fun nt hnt => ?_
    obtain ⟨⟨e, he, het⟩, e', he', hm⟩ := htyp nt (List.mem_range.1 hnt)
    have he1 : Only g (dotted "TYPE_NAME".toList (nt + 1)) e := he
    have he2 : Only g (dotted "MASS".toList (nt + 1)) e' := he'
    rw [typeOf, find_only he1, Option.bind_some, find_only he2, Option.bind_some, float_eq hm, het]
    rfl
  have hatoms : (List.range d.nat).mapM (atomOf g) = some ((List.range d.nat).map fun na => ((d.kind na : Int), d.tau na)) := by
    refine mapM_eq _ _ _ fun na hna => ?_
    obtain ⟨-, e, i, w, t, he, hi, hw, hr, ht, hf⟩ := hatom na (List.mem_range.1 hna)
    have he1 : Only g (dotted "ATOM".toList (na + 1)) e := he
    rw [atomOf, find_only he1, Option.bind_some, hi, Option.bind_some]
    simp only [hw, hr, Option.bind_some, ht, hf, row3_eq, Option.map_some, add_sub_cancel_right]
  have hkinds : (((List.range d.nat).map fun na => ((d.kind na : Int), d.tau na)).mapM fun a : Int × (Fin 3 → ℚ) =>
      (Verif.Text.pyIndex ((List.range d.ntyp).map fun nt => (some (d.name nt), d.mass nt)).length a.1).bind fun k =>
        ((List.range d.ntyp).map fun nt => (some (d.name nt), d.mass nt))[k]?) =
      some ((List.range d.nat).map fun na => (some (d.name (d.kind na)), d.mass (d.kind na))) := by
    rw [List.mapM_map]
    refine mapM_eq _ _ _ fun na hna => ?_
    have hk := (hatom na (List.mem_range.1 hna)).1
    simp only [Function.comp, List.length_map, List.length_range]
    rw [Verif.Text.pyIndex, if_pos ⟨by omega, by omega⟩, Option.bind_some, Int.toNat_natCast, List.getElem?_map, List.getElem?_range hk]
    rfl
  unfold readFlfrcXml
  rw [find_only hgeo, Option.bind_some, find_only h1, Option.bind_some, int_eq h1', Option.bind_some, find_only h2, Option.bind_some, int_eq h2',
    Option.bind_some, find_only h3, Option.bind_some, int_eq h3', Option.bind_some, find_only h4, Option.bind_some, floats_eq h4', Option.bind_some,
    hlat, Option.bind_some, if_neg (by omega)]
  simp only [Int.toNat_natCast, htypes, hatoms, Option.bind_some, hkinds, dielectric_eq hd, List.map_map, List.getD_cons_zero]
  congr 1
  funext f
  congr 1
  refine List.map_congr_left fun na _ => ?_
  funext x
  simp

/-! ### Properties -/

/-- C149: all quantities in a file with force constants are returned, with the first Cartesian index of force constants being the first in the file. -/
theorem C149_ifc (uRy : ℝ) (root g : Elem) (d : Data) (hg : HasGeometry root g d) (hd : HasDielectric root d) (A : M3) (hA : d.lattice = some A)
    (nr1 nr2 nr3 : Nat) (alph : Option ℚ) (phi : Nat → Nat → Nat → Nat → Nat → Fin 3 → Fin 3 → ℚ) (hi : HasIfc root d.nat nr1 nr2 nr3 alph phi) :
    ∃ out l, readFlfrcXml uRy root = some out ∧ out.phid = Sum.inl l ∧
      (∀ i m, (i, m) ∈ l ↔ (i.1 < d.nat ∧ i.2.1 < d.nat ∧ i.2.2.1 < nr1 ∧ i.2.2.2.1 < nr2 ∧ i.2.2.2.2 < nr3) ∧
        m = fun x y => (phi i.1 i.2.1 i.2.2.1 i.2.2.2.1 i.2.2.2.2 x y : ℝ)) ∧
      out.amass = (List.range d.nat).map (fun na => (d.mass (d.kind na) : ℝ) * uRy) ∧ out.at' = A ∧
      out.tau = (List.range d.nat).map (fun na => fun x => (d.tau na x : ℝ) * (d.celldm 0 : ℝ)) ∧
      out.atomOrder = (List.range d.nat).map (fun na => some (d.name (d.kind na))) ∧ out.alph = alph ∧ out.epsil = d.epsil ∧
      out.zeu = d.zeu.map fun z => (List.range d.nat).map z := by
  rw [readFlfrcXml_eq uRy root g d hg hd A hA]
  obtain ⟨ifc, hifc, ha, ⟨c, t, hc, ht, hr⟩, hphi⟩ := hi
  have hl : (indices d.nat nr1 nr2 nr3).mapM (ifcOf ifc) =
      some ((indices d.nat nr1 nr2 nr3).map fun i => (i, fun x y => (phi i.1 i.2.1 i.2.2.1 i.2.2.2.1 i.2.2.2.2 x y : ℝ))) := by
    refine mapM_eq _ _ _ fun i hi => ?_
    obtain ⟨i1, i2, i3, i4, i5⟩ := (mem_indices _ _ _ _ _).1 hi
    obtain ⟨c, c', hc, hc', hf⟩ := hphi _ i1 _ i2 _ i3 _ i4 _ i5
    have e : ifcTag i = "s_s1_m1_m2_m3.".toList ++ showNat (i.1 + 1) ++ '.' :: showNat (i.2.1 + 1) ++ '.' :: showNat (i.2.2.1 + 1) ++
        '.' :: showNat (i.2.2.2.1 + 1) ++ '.' :: showNat (i.2.2.2.2 + 1) := by
      simp [ifcTag, dotted]
    rw [ifcOf, e, find_only hc, Option.bind_some, find_only hc', Option.bind_some, floats_eq hf, Option.bind_some, reshape_fortran]
    rfl
  have hf : forces root g d.nat (d.celldm 0) =
      some (Sum.inl ((indices d.nat nr1 nr2 nr3).map fun i => (i, fun x y => (phi i.1 i.2.1 i.2.2.1 i.2.2.2.1 i.2.2.2.2 x y : ℝ))), alph) := by
    have e : (match ifc.find "alpha_ewald".toList with
        | none => some none
        | some e => (float e).map some) = some alph := by
      cases alph with
      | none => rw [find_absent ha]
      | some x =>
        obtain ⟨c, hc, hx⟩ := ha
        rw [find_only hc]
        simp only [float_eq hx]
        rfl
    unfold forces
    rw [find_only hifc]
    simp only
    rw [e, Option.bind_some, find_only hc, Option.bind_some, ht, Option.bind_some, hr]
    simp only [Int.toNat_natCast]
    rw [if_neg (by omega), hl]
    rfl
  rw [hf, Option.map_some]
  refine ⟨_, _, rfl, rfl, ?_, rfl, rfl, rfl, rfl, rfl, rfl, rfl⟩
  intro i m
  rw [List.mem_map]
  constructor
  · rintro ⟨j, hj, h⟩
    rw [Prod.mk.injEq] at h
    obtain ⟨rfl, rfl⟩ := h
    exact ⟨(mem_indices _ _ _ _ _).1 hj, rfl⟩
  · rintro ⟨h, rfl⟩
    exact ⟨i, (mem_indices _ _ _ _ _).2 h, rfl⟩

/-- C149: all points and dynamical matrices in a file are returned, with points in Cartesian coordinates. -/
theorem C149_dyn (uRy : ℝ) (root g : Elem) (d : Data) (hg : HasGeometry root g d) (hd : HasDielectric root d) (A : M3) (hA : d.lattice = some A)
    (nq : Nat) (q : Nat → Fin 3 → ℚ) (re im : Nat → Nat → Nat → Fin 3 → Fin 3 → ℚ) (hi : HasDyn root g d.nat nq q re im) :
    ∃ out l, readFlfrcXml uRy root = some out ∧ out.phid = Sum.inr l ∧
      out.amass = (List.range d.nat).map (fun na => (d.mass (d.kind na) : ℝ) * uRy) ∧ out.at' = A ∧
      out.tau = (List.range d.nat).map (fun na => fun x => (d.tau na x : ℝ) * (d.celldm 0 : ℝ)) ∧
      out.atomOrder = (List.range d.nat).map (fun na => some (d.name (d.kind na))) ∧ out.alph = none ∧ out.epsil = d.epsil ∧
      (out.zeu = d.zeu.map fun z => (List.range d.nat).map z) ∧
      List.Forall₂ (fun e iq => (∀ x, e.1 x * (d.celldm 0 : ℝ) = 2 * Real.pi * (q iq x : ℝ) ∨ d.celldm 0 = 0) ∧
        ∀ p m, (p, m) ∈ e.2 ↔ (p.1 < d.nat ∧ p.2 < d.nat) ∧ m = fun x y => (⟨(re iq p.1 p.2 x y : ℝ), (im iq p.1 p.2 x y : ℝ)⟩ : ℂ)) l (List.range nq) := by
  rw [readFlfrcXml_eq uRy root g d hg hd A hA]
  obtain ⟨habs, ⟨e, he, hn⟩, hdyn⟩ := hi
  set F : Nat → (Fin 3 → ℝ) × List ((Nat × Nat) × (Fin 3 → Fin 3 → ℂ)) := fun iq =>
    (fun x => (q iq x : ℝ) * (2 * Real.pi / (d.celldm 0 : ℝ)), ((List.range d.nat).flatMap fun na1 => (List.range d.nat).map fun na2 => (na1, na2)).map fun p =>
      (p, fun x y => (re iq p.1 p.2 x y : ℂ) + Complex.I * (im iq p.1 p.2 x y : ℂ))) with hF
  have hl : (List.range nq).mapM (dynOf root d.nat (d.celldm 0)) = some ((List.range nq).map F) := by
    refine mapM_eq _ _ _ fun iq hiq => ?_
    obtain ⟨e, he, ⟨c, hc, hf⟩, hp⟩ := hdyn iq (List.mem_range.1 hiq)
    have he1 : Only root (dotted "DYNAMICAL_MAT_".toList (iq + 1)) e := he
    unfold dynOf
    rw [find_only he1, Option.bind_some, find_only hc, Option.bind_some, floats_eq hf, Option.bind_some, row3_eq, Option.bind_some]
    rw [mapM_eq _ _ fun p => (p, fun x y => (re iq p.1 p.2 x y : ℂ) + Complex.I * (im iq p.1 p.2 x y : ℂ))]
    · rfl
    · intro p hp'
      simp only [List.mem_flatMap, List.mem_map, List.mem_range] at hp'
      obtain ⟨a, ha, b, hb, rfl⟩ := hp'
      obtain ⟨c, hc, hf⟩ := hp a ha b hb
      have e1 : dotted (dotted "PHI".toList (a + 1)) (b + 1) = "PHI.".toList ++ showNat (a + 1) ++ '.' :: showNat (b + 1) := by simp [dotted]
      rw [e1, find_only hc, Option.bind_some, floats_eq hf, Option.bind_some, complexes_fortran, Option.bind_some, reshape_fortran]
      rfl
  have hf : forces root g d.nat (d.celldm 0) = some (Sum.inr ((List.range nq).map F), none) := by
    unfold forces
    rw [find_absent habs]
    simp only
    rw [find_only he, Option.bind_some, int_eq hn, Option.bind_some, if_neg (by omega), Int.toNat_natCast, hl]
    rfl
  rw [hf, Option.map_some]
  refine ⟨_, _, rfl, rfl, rfl, rfl, rfl, rfl, rfl, rfl, rfl, ?_⟩
  rw [List.forall₂_map_left_iff, List.forall₂_same]
  intro iq _
  refine ⟨fun x => ?_, fun p m => ?_⟩
  · by_cases h0 : d.celldm 0 = 0
    · exact Or.inr h0
    · left
      have : (d.celldm 0 : ℝ) ≠ 0 := by exact_mod_cast h0
      simp only [hF]
      field_simp
  · have ez : ∀ p : Nat × Nat, (fun x y => (re iq p.1 p.2 x y : ℂ) + Complex.I * (im iq p.1 p.2 x y : ℂ)) =
        fun x y => (⟨(re iq p.1 p.2 x y : ℝ), (im iq p.1 p.2 x y : ℝ)⟩ : ℂ) := by
      intro p
      funext x y
      apply Complex.ext <;> simp
    simp only [hF, List.mem_map, List.mem_flatMap, List.mem_range]
    constructor
    · rintro ⟨p', ⟨a, ha, b, hb, rfl⟩, h⟩
      rw [Prod.mk.injEq] at h
      obtain ⟨rfl, rfl⟩ := h
      exact ⟨⟨ha, hb⟩, ez _⟩
    · rintro ⟨⟨h1, h2⟩, rfl⟩
      exact ⟨p, ⟨p.1, h1, p.2, h2, rfl⟩, by rw [ez]⟩

/-- C149: files without a section for dielectric properties are not read, even though both quantities therein are optional. -/
theorem C149_missing (uRy : ℝ) (root : Elem) (h : Absent root "DIELECTRIC_PROPERTIES".toList) : readFlfrcXml uRy root = none := by
  have hd : ∀ n, dielectric root n = none := fun n => by rw [dielectric, find_absent h, Option.bind_none]
  unfold readFlfrcXml
  simp only [hd, Option.bind_none]
  cases root.find "GEOMETRY_INFO".toList with
  | none => rfl
  | some g =>
    simp only [Option.bind_some]
    cases (g.find "NUMBER_OF_TYPES".toList).bind int with
    | none => rfl
    | some a =>
      cases (g.find "NUMBER_OF_ATOMS".toList).bind int with
      | none => rfl
      | some b =>
        cases (g.find "BRAVAIS_LATTICE_INDEX".toList).bind int with
        | none => rfl
        | some c =>
          cases (g.find "CELL_DIMENSIONS".toList).bind floats with
          | none => rfl
          | some cd =>
            simp only [Option.bind_some]
            cases lattice g c cd with
            | none => rfl
            | some A =>
              simp only [Option.bind_some]
              split
              · rfl
              · simp

/-! ### Examples -/

theorem only_nodup (e c : Elem) (tag : Str) (h : (e.children.map Elem.tag).Nodup) (hc : c ∈ e.children) (ht : c.tag = tag) : Only e tag c := by
  refine ⟨hc, ht, fun c' hc' h' => ?_⟩
  exact List.inj_on_of_nodup_map h hc' hc (h'.trans ht.symm)

def leaf (tag text : String) : Elem := .mk tag.toList [] (some text.toList) []

def node (tag : String) (children : List Elem) : Elem := .mk tag.toList [] none children

def exampleGeometry : Elem :=
  node "GEOMETRY_INFO" [leaf "NUMBER_OF_TYPES" "1", leaf "NUMBER_OF_ATOMS" " 1 ", leaf "BRAVAIS_LATTICE_INDEX" "1", leaf "CELL_DIMENSIONS" "5.5 0 0 0 0 0",
    leaf "TYPE_NAME.1" "Po", leaf "MASS.1" "209.0", .mk "ATOM.1".toList [("INDEX".toList, "1".toList), ("TAU".toList, "0 0 0".toList)] none [],
    leaf "NUMBER_OF_Q" "1"]

def exampleDielectric : Elem := node "DIELECTRIC_PROPERTIES" [leaf "EPSILON" "1 0 0 0 1 0 0 0 1"]

def exampleIfc : Elem :=
  node "INTERATOMIC_FORCE_CONSTANTS" [leaf "MESH_NQ1_NQ2_NQ3" "1 1 1", node "s_s1_m1_m2_m3.1.1.1.1.1" [leaf "IFC" "1 2 3 4 5 6 7 8 9"]]

def exampleDyn : Elem := node "DYNAMICAL_MAT_.1" [leaf "Q_POINT" "0 0 0.5", leaf "PHI.1.1" "1 0 2 0 3 0 4 0 5 0 6 0 7 0 8 0 9 1"]

def exampleData : Data where
  ntyp := 1
  nat := 1
  ibrav := 1
  celldm := ![11 / 2, 0, 0, 0, 0, 0]
  cell := fun _ _ => 0
  name := fun _ => "Po".toList
  mass := fun _ => 209
  kind := fun _ => 0
  tau := fun _ _ => 0
  epsil := some fun i j => if i = j then 1 else 0
  zeu := none

theorem exampleHasGeometry (forces : Elem) :
    HasGeometry (node "Root" [exampleGeometry, exampleDielectric, forces]) exampleGeometry exampleData ∨ forces.tag = "GEOMETRY_INFO".toList := by
  by_cases hf : forces.tag = "GEOMETRY_INFO".toList
  · exact Or.inr hf
  left
  have hn : (exampleGeometry.children.map Elem.tag).Nodup := by decide
  refine ⟨⟨by simp [node, Elem.children], rfl, ?_⟩, ⟨_, only_nodup _ _ _ hn (by simp only [exampleGeometry, node, Elem.children]; exact List.mem_cons_self) rfl, "1".toList, "1".toList, rfl, by decide +kernel, by decide +kernel⟩,
    ⟨_, only_nodup _ (leaf "NUMBER_OF_ATOMS" " 1 ") _ hn (by simp [exampleGeometry, node, Elem.children]) rfl, " 1 ".toList, "1".toList, rfl, by decide +kernel, by decide +kernel⟩,
    ⟨_, only_nodup _ (leaf "BRAVAIS_LATTICE_INDEX" "1") _ hn (by simp [exampleGeometry, node, Elem.children]) rfl, "1".toList, "1".toList, rfl, by decide +kernel, by decide +kernel⟩,
    ⟨_, only_nodup _ (leaf "CELL_DIMENSIONS" "5.5 0 0 0 0 0") _ hn (by simp [exampleGeometry, node, Elem.children]) rfl, "5.5 0 0 0 0 0".toList, rfl, by decide +kernel⟩,
    fun h => absurd h (by decide), ?_, ?_⟩
  · intro c hc ht
    simp only [node, Elem.children, List.mem_cons, List.not_mem_nil, or_false] at hc
    rcases hc with rfl | rfl | rfl
    · rfl
    · exact absurd ht (by decide)
    · exact absurd ht hf
  · intro nt hnt
    have : nt = 0 := by simp only [exampleData] at hnt; omega
    subst this
    exact ⟨⟨_, only_nodup _ (leaf "TYPE_NAME.1" "Po") _ hn (by simp [exampleGeometry, node, Elem.children]) rfl, rfl⟩,
      ⟨_, only_nodup _ (leaf "MASS.1" "209.0") _ hn (by simp [exampleGeometry, node, Elem.children]) rfl, "209.0".toList, "209.0".toList, rfl, by decide +kernel, by decide +kernel⟩⟩
  · intro na hna
    have : na = 0 := by simp only [exampleData] at hna; omega
    subst this
    exact ⟨Nat.zero_lt_one, _, "1".toList, "1".toList, "0 0 0".toList, only_nodup _ (.mk "ATOM.1".toList [("INDEX".toList, "1".toList), ("TAU".toList, "0 0 0".toList)] none []) _ hn
      (by simp [exampleGeometry, node, Elem.children]) rfl, by decide, by decide +kernel, by decide +kernel, by decide, by decide +kernel⟩

theorem exampleHasDielectric (forces : Elem) (hf : forces.tag ≠ "DIELECTRIC_PROPERTIES".toList) :
    HasDielectric (node "Root" [exampleGeometry, exampleDielectric, forces]) exampleData := by
  refine ⟨exampleDielectric, ⟨by simp [node, Elem.children], rfl, ?_⟩, ⟨leaf "EPSILON" "1 0 0 0 1 0 0 0 1", only_nodup _ _ _ (by decide)
    (by simp [exampleDielectric, node, Elem.children]) rfl, "1 0 0 0 1 0 0 0 1".toList, rfl, by decide +kernel⟩, ?_⟩
  · intro c hc ht
    simp only [node, Elem.children, List.mem_cons, List.not_mem_nil, or_false] at hc
    rcases hc with rfl | rfl | rfl
    · exact absurd ht (by decide)
    · rfl
    · exact absurd ht hf
  · intro c hc
    simp only [exampleDielectric, node, Elem.children, List.mem_cons, List.not_mem_nil, or_false] at hc
    subst hc
    decide

def examplePhi : Fin 3 → Fin 3 → ℚ := fun x y => x.val + 3 * y.val + 1

example (uRy : ℝ) := C149_ifc uRy (node "Root" [exampleGeometry, exampleDielectric, exampleIfc]) exampleGeometry exampleData
  ((exampleHasGeometry exampleIfc).resolve_right (by decide)) (exampleHasDielectric exampleIfc (by decide)) _ (by
    simp only [Data.lattice, exampleData, latgen]
    rfl) 1 1 1 none (fun _ _ _ _ _ => examplePhi) (by
    refine ⟨exampleIfc, only_nodup _ _ _ (by decide) (by simp [node, Elem.children]) rfl, ?_, ⟨leaf "MESH_NQ1_NQ2_NQ3" "1 1 1", "1 1 1".toList,
      only_nodup _ _ _ (by decide) (by simp [exampleIfc, node, Elem.children]) rfl, rfl, by decide +kernel⟩, ?_⟩
    · intro c hc
      simp only [exampleIfc, node, Elem.children, List.mem_cons, List.not_mem_nil, or_false] at hc
      rcases hc with rfl | rfl <;> decide
    · intro na1 h1 na2 h2 m1 h3 m2 h4 m3 h5
      simp only [exampleData] at h1 h2
      obtain rfl : na1 = 0 := by omega
      obtain rfl : na2 = 0 := by omega
      obtain rfl : m1 = 0 := by omega
      obtain rfl : m2 = 0 := by omega
      obtain rfl : m3 = 0 := by omega
      exact ⟨node "s_s1_m1_m2_m3.1.1.1.1.1" [leaf "IFC" "1 2 3 4 5 6 7 8 9"], leaf "IFC" "1 2 3 4 5 6 7 8 9",
        only_nodup _ _ _ (by decide) (by simp [exampleIfc, node, Elem.children]) rfl, only_nodup _ _ _ (by decide) (by simp [node, Elem.children]) rfl,
        "1 2 3 4 5 6 7 8 9".toList, rfl, by decide +kernel⟩)

example (uRy : ℝ) := C149_dyn uRy (node "Root" [exampleGeometry, exampleDielectric, exampleDyn]) exampleGeometry exampleData
  ((exampleHasGeometry exampleDyn).resolve_right (by decide)) (exampleHasDielectric exampleDyn (by decide)) _ (by
    simp only [Data.lattice, exampleData, latgen]
    rfl) 1 (fun _ => ![0, 0, 1 / 2]) (fun _ _ _ => examplePhi) (fun _ _ _ x y => if x = 2 ∧ y = 2 then 1 else 0) (by
    refine ⟨?_, ⟨leaf "NUMBER_OF_Q" "1", only_nodup _ _ _ (by decide) (by simp [exampleGeometry, node, Elem.children]) rfl, "1".toList, "1".toList, rfl,
      by decide +kernel, by decide +kernel⟩, ?_⟩
    · intro c hc
      simp only [node, Elem.children, List.mem_cons, List.not_mem_nil, or_false] at hc
      rcases hc with rfl | rfl | rfl <;> decide
    · intro iq hiq
      obtain rfl : iq = 0 := by omega
      refine ⟨exampleDyn, only_nodup _ _ _ (by decide) (by simp [node, Elem.children]) rfl, ⟨leaf "Q_POINT" "0 0 0.5", only_nodup _ _ _ (by decide)
        (by simp [exampleDyn, node, Elem.children]) rfl, "0 0 0.5".toList, rfl, by decide +kernel⟩, ?_⟩
      intro na1 h1 na2 h2
      simp only [exampleData] at h1 h2
      obtain rfl : na1 = 0 := by omega
      obtain rfl : na2 = 0 := by omega
      exact ⟨leaf "PHI.1.1" "1 0 2 0 3 0 4 0 5 0 6 0 7 0 8 0 9 1", only_nodup _ _ _ (by decide) (by simp [exampleDyn, node, Elem.children]) rfl,
        "1 0 2 0 3 0 4 0 5 0 6 0 7 0 8 0 9 1".toList, rfl, by decide +kernel⟩)

example (uRy : ℝ) := C149_missing uRy (node "Root" [exampleGeometry, exampleIfc]) (by
  intro c hc
  simp only [node, Elem.children, List.mem_cons, List.not_mem_nil, or_false] at hc
  rcases hc with rfl | rfl <;> decide)

end Verif.FlfrcXml
