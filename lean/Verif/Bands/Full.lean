import Verif.Bands.Props
import Verif.Mesh.Props
import Verif.MPI.Props

/-!
# `dispersion_full`, `dispersion_full_nosym` (C90) and shared memory in `dispersion` (C91)
-/

namespace Verif.Bands

open Verif.Mesh (P Angle Lin meshPoints irreducibles images SymEquiv OnMesh mem_meshPoints C19_images C20_irreducibles
  C20_one_per_orbit RowLt pairwise_meshPoints)

/-! ### Model -/

/-- `elphmod/dispersion.py` 225: `np.array(sorted(elphmod.bravais.irreducibles(size, angle=angle)))`. Tuples are compared
component by component, which is the order of `meshPoints`. -/
def wedge (nk : Nat) (angle : Angle) : List P := (meshPoints nk).filter fun p => p ∈ irreducibles nk angle

/-- `elphmod/dispersion.py` 236-241 (`on_side_path`). -/
def onSidePath : Angle → P → P → Bool
  | .a120, p, q => q.2 - q.1 == p.2 - p.1
  | _, p, q => q.2 == p.2

/-- Point number `n`. -/
def kAt (ks : List P) (n : Nat) : P := ks.getD n (0, 0)

/-- `elphmod/dispersion.py` 284: `main_path`. -/
def mainPath (ks : List P) : List Nat := (List.range ks.length).filter fun n => (kAt ks n).1 == 0

/-- `elphmod/dispersion.py` 291: `side_path`. -/
def sidePath (angle : Angle) (ks : List P) (n : Nat) : List Nat :=
  (List.range ks.length).filter fun m => onSidePath angle (kAt ks n) (kAt ks m)

/-- Arrays `o` (not initialized at first), `v` and `V` (by columns) in `elphmod/dispersion.py` 246-302. -/
structure Arrays (d : Nat) where
  o : Nat → Option (List Nat)
  v : Nat → Nat → ℝ
  V : Nat → Nat → Fin d → ℂ

/-- `elphmod/dispersion.py` 296-301: order the bands at one point. -/
def applyOrder {d : Nat} (vectors : Bool) (s : Arrays d) (m : Nat) (row : List Nat) : Arrays d where
  o := Function.update s.o m (some row)
  v := Function.update s.v m fun i => s.v m (row.getD i 0)
  V := if vectors then Function.update s.V m fun i => s.V m (row.getD i 0) else s.V

/-- `elphmod/dispersion.py` 290-303: the loop over the main path. `ord n` gives the orders of iteration of sets in the calls of
`band_order`. -/
noncomputable def sideLoop {d : Nat} (angle : Angle) (ks : List P) (bands : Nat) (vectors : Bool) (dv : Option ℝ) (eps : ℝ)
    (ord : Nat → Nat → List Nat) : List (Nat × List Nat) → Arrays d → Option (Arrays d)
  | [], s => some s
  | (n, N) :: rest, s =>
    let side := sidePath angle ks n
    match bandOrder side.length bands (fun i => s.v (side.getD i n)) (fun i => s.V (side.getD i n)) false dv eps (ord n) with
    | none => none
    | some rows => sideLoop angle ks bands vectors dv eps ord rest
        ((side.zip rows).foldl (fun s x => applyOrder vectors s x.1 (N.map fun i => x.2.getD i 0)) s)

/-- `elphmod/dispersion.py` 246-303: eigenvalues `v` and eigenvectors `V` on the irreducible wedge are ordered along the paths. -/
noncomputable def orderWedge {d : Nat} (angle : Angle) (ks : List P) (bands : Nat) (vectors : Bool) (dv : Option ℝ) (eps : ℝ)
    (ord0 : Nat → List Nat) (ord : Nat → Nat → List Nat) (v : Nat → Nat → ℝ) (V : Nat → Nat → Fin d → ℂ) :
    Option (Arrays d) :=
  let main := mainPath ks
  match bandOrder main.length bands (fun i => v (main.getD i 0)) (fun i => V (main.getD i 0)) true dv eps ord0 with
  | none => none
  | some rows => sideLoop angle ks bands vectors dv eps ord (main.zip rows) ⟨fun _ => none, v, V⟩

/-- `elphmod/dispersion.py` 327-335: transfer data from wedge to mesh; `none`: not initialized. -/
def fillMesh {α : Type} (nk : Nat) (angle : Angle) (ks : List P) (x : Nat → α) : P → Option α :=
  (List.range ks.length).foldl (fun mesh n K => if K ∈ images (kAt ks n) nk angle then some (x n) else mesh K) fun _ => none

/-- Results on the mesh. -/
structure Mesh (d : Nat) where
  v : P → Option (Nat → ℝ)
  V : P → Option (Nat → Fin d → ℂ)
  o : P → Option (Option (List Nat))

/-- `elphmod/dispersion.py` 218-359 (`dispersion_full`) with `order=True`. `ev k` and `evec k` are the results of `dispersion` (see
C02) for the matrix at mesh point `k`. -/
noncomputable def dispersionFull {d : Nat} (nk : Nat) (angle : Angle) (bands : Nat) (vectors : Bool) (dv : Option ℝ) (eps : ℝ)
    (ord0 : Nat → List Nat) (ord : Nat → Nat → List Nat) (ev : P → Nat → ℝ) (evec : P → Nat → Fin d → ℂ) : Option (Mesh d) :=
  let ks := wedge nk angle
  (orderWedge angle ks bands vectors dv eps ord0 ord (fun n => ev (kAt ks n)) fun n => evec (kAt ks n)).map fun s =>
    ⟨fillMesh nk angle ks s.v, fillMesh nk angle ks s.V, fillMesh nk angle ks s.o⟩

/-- `elphmod/dispersion.py` 218-359 (`dispersion_full`) with `order=False`: eigenvalues. -/
def dispersionFullUnordered (nk : Nat) (angle : Angle) (ev : P → Nat → ℝ) : P → Option (Nat → ℝ) :=
  let ks := wedge nk angle
  fillMesh nk angle ks fun n => ev (kAt ks n)

/-- `elphmod/dispersion.py` 389-396 (`dispersion_full_nosym` with `order=True`): eigenvalues and eigenvectors at a mesh point. -/
def nosymOrder {d : Nat} (row : List Nat) (v : Nat → ℝ) (V : Nat → Fin d → ℂ) : (Nat → ℝ) × (Nat → Fin d → ℂ) :=
  (fun i => v (row.getD i 0), fun i => V (row.getD i 0))

/-! ### The irreducible wedge -/

theorem mem_wedge (nk : Nat) (angle : Angle) (p : P) : p ∈ wedge nk angle ↔ p ∈ irreducibles nk angle := by
  unfold wedge
  simp only [List.mem_filter, decide_eq_true_eq, and_iff_right_iff_imp]
  intro h
  exact (mem_meshPoints nk p).2 ((C20_irreducibles nk angle p).1 h).1

theorem pairwise_wedge (nk : Nat) (angle : Angle) : (wedge nk angle).Pairwise RowLt :=
  (pairwise_meshPoints nk).filter _

theorem nodup_wedge (nk : Nat) (angle : Angle) : (wedge nk angle).Nodup :=
  List.Pairwise.imp (fun {a b} (h : RowLt a b) (e : a = b) => RowLt.irrefl b (e ▸ h)) (pairwise_wedge nk angle)

theorem kAt_mem {ks : List P} {n : Nat} (h : n < ks.length) : kAt ks n ∈ ks := by
  unfold kAt
  rw [List.getD_eq_getElem?_getD, List.getElem?_eq_getElem h]
  exact List.getElem_mem h

theorem kAt_lt {nk : Nat} {angle : Angle} {m n : Nat} (h : m < n) (hn : n < (wedge nk angle).length) :
    RowLt (kAt (wedge nk angle) m) (kAt (wedge nk angle) n) := by
  have := List.pairwise_iff_getElem.1 (pairwise_wedge nk angle) m n (by omega) hn h
  unfold kAt
  rw [List.getD_eq_getElem?_getD, List.getD_eq_getElem?_getD, List.getElem?_eq_getElem hn,
    List.getElem?_eq_getElem (show m < _ by omega)]
  exact this

theorem kAt_surj {ks : List P} {p : P} (h : p ∈ ks) : ∃ n, n < ks.length ∧ kAt ks n = p := by
  obtain ⟨n, hn, rfl⟩ := List.getElem_of_mem h
  refine ⟨n, hn, ?_⟩
  unfold kAt
  rw [List.getD_eq_getElem?_getD, List.getElem?_eq_getElem hn]
  rfl

/-- The symmetry operations `(k1, k2) → (k2, k1)`, `(k1, k2) → (-k1, -k2)` and the reflection that keeps `k1`. -/
def keepFirst : Angle → Lin
  | .a60 => ⟨1, 0, -1, -1⟩
  | .a90 => ⟨1, 0, 0, -1⟩
  | .a120 => ⟨1, 0, 1, -1⟩

theorem isometry_keepFirst (angle : Angle) : (keepFirst angle).Isometry angle := by
  intro k
  cases angle <;> simp only [Mesh.normSq, keepFirst, Lin.act] <;> ring

theorem isometry_neg (angle : Angle) : (Lin.mk (-1) 0 0 (-1)).Isometry angle := by
  intro k
  cases angle <;> simp only [Mesh.normSq, Lin.act] <;> ring

/-- Minimality of irreducible points with respect to one symmetry operation. -/
theorem irr_le {nk : Nat} {angle : Angle} {p : P} (hp : p ∈ irreducibles nk angle) (A : Lin) (hA : A.Isometry angle) :
    p.1 < (A.act p).1 % nk ∨ p.1 = (A.act p).1 % nk ∧ p.2 ≤ (A.act p).2 % nk := by
  obtain ⟨⟨h1, h2⟩, h⟩ := (C20_irreducibles nk angle p).1 hp
  have hnk : (0 : Int) < nk := by omega
  have himg : Mesh.red nk (A.act p) ∈ images p nk angle := (Mesh.mem_images_isometry _ _ _ _).2 ⟨A, hA, rfl⟩
  have hsym := (C19_images _ _ hnk angle p).1 ((Mesh.C19_equivalence nk angle).2.1 p ⟨h1, h2⟩ _ himg)
  have := h (Mesh.red nk (A.act p)) ⟨⟨Int.emod_nonneg _ hnk.ne', Int.emod_lt_of_pos _ hnk⟩,
    ⟨Int.emod_nonneg _ hnk.ne', Int.emod_lt_of_pos _ hnk⟩⟩ hsym.2.2
  unfold Mesh.Before Mesh.red at this
  simp only at this
  omega

theorem neg_emod {nk : Nat} {a : Int} (h : 0 < a) (ha : a ≤ nk) : (-a) % (nk : Int) = nk - a := by
  rw [← Int.add_mul_emod_self_left (-a) nk 1, Int.emod_eq_of_lt] <;> omega

/-- Points on the main path. -/
theorem main_irr {nk : Nat} {angle : Angle} {m : Int} (h0 : 0 ≤ m) (h : m < nk) (h2 : 2 * m ≤ nk) :
    ((0, m) : P) ∈ irreducibles nk angle := by
  have hnk : (0 : Int) < nk := by omega
  have hmesh : OnMesh nk ((0, m) : P) := ⟨⟨le_rfl, hnk⟩, h0, h⟩
  refine (C20_irreducibles nk angle _).2 ⟨hmesh, ?_⟩
  rintro q ⟨hq1, hq2⟩ hs hb
  have himg : ((0, m) : P) ∈ images q nk angle := (C19_images _ _ hnk angle _).2 ⟨⟨le_rfl, hnk⟩, ⟨h0, h⟩, hs⟩
  have himg' := (Mesh.C19_equivalence nk angle).2.1 q ⟨hq1, hq2⟩ _ himg
  obtain ⟨A, hA, e⟩ := (Mesh.mem_images_isometry _ _ _ _).1 himg'
  have e1 : q.1 = (A.b * m) % nk := by
    rw [e]
    simp [Mesh.red, Lin.act]
  have e2 : q.2 = (A.d * m) % nk := by
    rw [e]
    simp [Mesh.red, Lin.act]
  unfold Mesh.Before at hb
  simp only at hb
  have hn := hA (0, 1)
  have key : A.b = 0 ∧ (A.d = 1 ∨ A.d = -1) ∨ A.b = 1 ∨ A.b = -1 := by
    cases angle
    · simp only [Mesh.normSq, Lin.act] at hn
      have := Mesh.unit60 (a := A.b) (b := A.d) (by linarith)
      omega
    · simp only [Mesh.normSq, Lin.act] at hn
      have := Mesh.unit90 (a := A.b) (b := A.d) (by linarith)
      omega
    · simp only [Mesh.normSq, Lin.act] at hn
      have := Mesh.unit60 (a := A.b) (b := -A.d) (by linarith)
      omega
  rcases key with ⟨-, hd | hd⟩ | hd | hd
  · rw [hd, one_mul, Int.emod_eq_of_lt h0 h] at e2
    omega
  · rcases h0.eq_or_lt with rfl | hm
    · omega
    · rw [hd, neg_one_mul, neg_emod hm h.le] at e2
      omega
  · rw [hd, one_mul, Int.emod_eq_of_lt h0 h] at e1
    omega
  · rcases h0.eq_or_lt with rfl | hm
    · omega
    · rw [hd, neg_one_mul, neg_emod hm h.le] at e1
      omega

/-- Every point of the wedge is on a side path that begins on the main path. -/
theorem side_main {nk : Nat} {angle : Angle} {p : P} (hp : p ∈ irreducibles nk angle) :
    ∃ m : Int, ((0, m) : P) ∈ irreducibles nk angle ∧ onSidePath angle (0, m) p = true := by
  obtain ⟨⟨h1, h2⟩, -⟩ := (C20_irreducibles nk angle p).1 hp
  have hk := irr_le hp (keepFirst angle) (isometry_keepFirst angle)
  have hn := irr_le hp ⟨0, 1, 1, 0⟩ (Mesh.isometry_swapL angle)
  have hm := irr_le hp ⟨0, -1, -1, 0⟩ (by
    intro k
    cases angle <;> simp only [Mesh.normSq, Lin.act] <;> ring)
  simp only [Lin.act, zero_mul, one_mul, zero_add, add_zero] at hn hm
  rw [Int.emod_eq_of_lt h2.1 h2.2, Int.emod_eq_of_lt h1.1 h1.2] at hn
  cases angle
  · refine ⟨p.2, main_irr h2.1 h2.2 ?_, by simp [onSidePath]⟩
    rcases h2.1.eq_or_lt with e | hpos
    · omega
    · rw [neg_one_mul, neg_emod hpos h2.2.le] at hm
      simp only [keepFirst, Lin.act, one_mul, zero_mul, add_zero] at hk
      rw [Int.emod_eq_of_lt h1.1 h1.2] at hk
      have hle : p.1 + p.2 ≤ nk := by omega
      have : -1 * p.1 + -1 * p.2 = -(p.1 + p.2) := by ring
      rw [this, neg_emod (by omega) hle] at hk
      omega
  · refine ⟨p.2, main_irr h2.1 h2.2 ?_, by simp [onSidePath]⟩
    rcases h2.1.eq_or_lt with e | hpos
    · omega
    · simp only [keepFirst, Lin.act, one_mul, zero_mul, add_zero, zero_add] at hk
      rw [Int.emod_eq_of_lt h1.1 h1.2, neg_one_mul, neg_emod hpos h2.2.le] at hk
      omega
  · refine ⟨p.2 - p.1, ?_, by simp [onSidePath]⟩
    have hle : p.1 ≤ p.2 := by omega
    refine main_irr (by omega) (by omega) ?_
    rcases hle.eq_or_lt with e | hpos
    · omega
    · simp only [keepFirst, Lin.act, one_mul, zero_mul, add_zero] at hk
      rw [Int.emod_eq_of_lt h1.1 h1.2] at hk
      have : p.1 + -1 * p.2 = -(p.2 - p.1) := by ring
      rw [this, neg_emod (by omega) (by omega)] at hk
      omega

/-! ### Paths -/

variable {d : Nat}

theorem mem_mainPath (ks : List P) (n : Nat) : n ∈ mainPath ks ↔ n < ks.length ∧ (kAt ks n).1 = 0 := by
  simp [mainPath]

theorem mem_sidePath (angle : Angle) (ks : List P) (n m : Nat) :
    m ∈ sidePath angle ks n ↔ m < ks.length ∧ onSidePath angle (kAt ks n) (kAt ks m) = true := by
  simp [sidePath]

theorem nodup_mainPath (ks : List P) : (mainPath ks).Nodup := List.nodup_range.filter _

theorem nodup_sidePath (angle : Angle) (ks : List P) (n : Nat) : (sidePath angle ks n).Nodup := List.nodup_range.filter _

theorem self_mem_sidePath (angle : Angle) (ks : List P) {n : Nat} (h : n < ks.length) : n ∈ sidePath angle ks n := by
  rw [mem_sidePath]
  refine ⟨h, ?_⟩
  cases angle <;> simp [onSidePath]

/-- Every point is on exactly one side path. -/
theorem side_exists (nk : Nat) (angle : Angle) {m : Nat} (hm : m < (wedge nk angle).length) :
    ∃ n ∈ mainPath (wedge nk angle), m ∈ sidePath angle (wedge nk angle) n := by
  obtain ⟨x, hx, hs⟩ := side_main ((mem_wedge nk angle _).1 (kAt_mem hm))
  obtain ⟨n, hn, e⟩ := kAt_surj ((mem_wedge nk angle _).2 hx)
  refine ⟨n, (mem_mainPath _ _).2 ⟨hn, by rw [e]⟩, (mem_sidePath _ _ _ _).2 ⟨hm, by rw [e]; exact hs⟩⟩

theorem kAt_inj {nk : Nat} {angle : Angle} {m n : Nat} (hm : m < (wedge nk angle).length) (hn : n < (wedge nk angle).length)
    (h : kAt (wedge nk angle) m = kAt (wedge nk angle) n) : m = n := by
  rcases Nat.lt_trichotomy m n with hlt | e | hlt
  · exact absurd (h ▸ kAt_lt hlt hn) (RowLt.irrefl _)
  · exact e
  · exact absurd (h ▸ kAt_lt hlt hm) (RowLt.irrefl _)

theorem side_disjoint (nk : Nat) (angle : Angle) {n n' m : Nat} (hn : n ∈ mainPath (wedge nk angle))
    (hn' : n' ∈ mainPath (wedge nk angle)) (hm : m ∈ sidePath angle (wedge nk angle) n)
    (hm' : m ∈ sidePath angle (wedge nk angle) n') : n = n' := by
  rw [mem_mainPath] at hn hn'
  rw [mem_sidePath] at hm hm'
  refine kAt_inj hn.1 hn'.1 (Prod.ext (hn.2.trans hn'.2.symm) ?_)
  have h1 := hm.2
  have h2 := hm'.2
  have e1 := hn.2
  have e2 := hn'.2
  cases angle <;> simp only [onSidePath, beq_iff_eq] at h1 h2 <;> omega

/-- The side path begins on the main path. -/
theorem side_head (nk : Nat) (angle : Angle) {n : Nat} (hn : n ∈ mainPath (wedge nk angle)) :
    (sidePath angle (wedge nk angle) n).getD 0 n = n := by
  have hself := self_mem_sidePath angle (wedge nk angle) ((mem_mainPath _ _).1 hn).1
  have hsorted : (sidePath angle (wedge nk angle) n).Pairwise (· < ·) := List.pairwise_lt_range.filter _
  cases hl : sidePath angle (wedge nk angle) n with
  | nil => rfl
  | cons a l =>
    rw [List.getD_cons_zero]
    rw [hl] at hself hsorted
    rcases List.mem_cons.1 hself with e | hmem
    · exact e.symm
    · have hlt : a < n := (List.pairwise_cons.1 hsorted).1 n hmem
      have ha : a ∈ sidePath angle (wedge nk angle) n := by rw [hl]; exact List.mem_cons_self
      rw [mem_sidePath] at ha
      rw [mem_mainPath] at hn
      have hrow := kAt_lt hlt hn.1
      have hmesh := ((C20_irreducibles nk angle _).1 ((mem_wedge nk angle _).1 (kAt_mem ha.1))).1
      have h1 := ha.2
      have h2 := hn.2
      unfold RowLt at hrow
      unfold OnMesh at hmesh
      cases angle <;> simp only [onSidePath, beq_iff_eq] at h1 <;> omega

/-! ### The loops -/

/-- Effect of reordering several points. -/
theorem applyOrder_fold (vectors : Bool) : ∀ (L : List (Nat × List Nat)) (s : Arrays d), (L.map Prod.fst).Nodup →
    let r := L.foldl (fun s x => applyOrder vectors s x.1 x.2) s
    (∀ x ∈ L, r.o x.1 = some x.2 ∧ r.v x.1 = (fun i => s.v x.1 (x.2.getD i 0)) ∧
      r.V x.1 = if vectors then fun i => s.V x.1 (x.2.getD i 0) else s.V x.1) ∧
    ∀ m, m ∉ L.map Prod.fst → r.o m = s.o m ∧ r.v m = s.v m ∧ r.V m = s.V m
  | [], s, _ => ⟨fun x hx => by simp at hx, fun m _ => ⟨rfl, rfl, rfl⟩⟩
  | y :: L, s, h => by
    simp only [List.map_cons, List.nodup_cons] at h
    have ih := applyOrder_fold vectors L (applyOrder vectors s y.1 y.2) h.2
    simp only at ih ⊢
    rw [List.foldl_cons]
    constructor
    · intro x hx
      rcases List.mem_cons.1 hx with rfl | hx
      · have := ih.2 x.1 h.1
        rw [this.1, this.2.1, this.2.2]
        refine ⟨by simp [applyOrder], by simp [applyOrder], ?_⟩
        cases vectors <;> simp [applyOrder]
      · have hne : x.1 ≠ y.1 := fun e => h.1 (e ▸ List.mem_map_of_mem hx)
        have := ih.1 x hx
        rw [this.1, this.2.1, this.2.2]
        refine ⟨rfl, ?_, ?_⟩
        · simp [applyOrder, hne]
        · cases vectors <;> simp [applyOrder, hne]
    · intro m hm
      simp only [List.map_cons, List.mem_cons, not_or] at hm
      have := ih.2 m hm.2
      rw [this.1, this.2.1, this.2.2]
      refine ⟨by simp [applyOrder, hm.1], by simp [applyOrder, hm.1], ?_⟩
      cases vectors <;> simp [applyOrder, hm.1]

/-- State of one point after it has been ordered. -/
def Ordered (vectors : Bool) (R : Nat → List Nat → Prop) (v0 : Nat → Nat → ℝ) (V0 : Nat → Nat → Fin d → ℂ) (s : Arrays d)
    (m : Nat) : Prop :=
  ∃ row, s.o m = some row ∧ R m row ∧ s.v m = (fun i => v0 m (row.getD i 0)) ∧
    (vectors = true → s.V m = fun i => V0 m (row.getD i 0))

theorem sideLoop_spec (angle : Angle) (ks : List P) (bands : Nat) (vectors : Bool) (dv : Option ℝ) (eps : ℝ)
    (ord : Nat → Nat → List Nat) (v0 : Nat → Nat → ℝ) (V0 : Nat → Nat → Fin d → ℂ) (R : Nat → List Nat → Prop) :
    ∀ (L : List (Nat × List Nat)) (s : Arrays d), (L.map Prod.fst).Nodup → (∀ x ∈ L, x.1 < ks.length) →
      (∀ x ∈ L, ∀ y ∈ L, ∀ m ∈ sidePath angle ks x.1, m ∈ sidePath angle ks y.1 → x.1 = y.1) →
      (∀ x ∈ L, ∀ m ∈ sidePath angle ks x.1, s.v m = v0 m ∧ s.V m = V0 m) →
      (∀ x ∈ L, ∃ rows, bandOrder (sidePath angle ks x.1).length bands (fun i => v0 ((sidePath angle ks x.1).getD i x.1))
        (fun i => V0 ((sidePath angle ks x.1).getD i x.1)) false dv eps (ord x.1) = some rows ∧
        rows.length = (sidePath angle ks x.1).length ∧
        ∀ y ∈ (sidePath angle ks x.1).zip rows, R y.1 (x.2.map fun i => y.2.getD i 0)) →
      ∃ r, sideLoop angle ks bands vectors dv eps ord L s = some r ∧
        (∀ x ∈ L, ∀ m ∈ sidePath angle ks x.1, Ordered vectors R v0 V0 r m) ∧
        ∀ m, (∀ x ∈ L, m ∉ sidePath angle ks x.1) → r.o m = s.o m ∧ r.v m = s.v m ∧ r.V m = s.V m
  | [], s, _, _, _, _, _ => ⟨s, rfl, fun x hx => by simp at hx, fun m _ => ⟨rfl, rfl, rfl⟩⟩
  | (n, N) :: L, s, hnd, hlt, hdis, hs, hrows => by
    obtain ⟨rows, hb, hlen, hR⟩ := hrows (n, N) List.mem_cons_self
    simp only at hb hlen hR
    have hn : n < ks.length := hlt (n, N) List.mem_cons_self
    have hmemD : ∀ i, (sidePath angle ks n).getD i n ∈ sidePath angle ks n := by
      intro i
      rw [List.getD_eq_getElem?_getD]
      rcases Nat.lt_or_ge i (sidePath angle ks n).length with h | h
      · rw [List.getElem?_eq_getElem h]
        exact List.getElem_mem h
      · rw [List.getElem?_eq_none h]
        exact self_mem_sidePath angle ks hn
    have e1 : (fun i => s.v ((sidePath angle ks n).getD i n)) = fun i => v0 ((sidePath angle ks n).getD i n) :=
      funext fun i => (hs (n, N) List.mem_cons_self _ (hmemD i)).1
    have e2 : (fun i => s.V ((sidePath angle ks n).getD i n)) = fun i => V0 ((sidePath angle ks n).getD i n) :=
      funext fun i => (hs (n, N) List.mem_cons_self _ (hmemD i)).2
    unfold sideLoop
    simp only
    rw [e1, e2, hb]
    simp only
    set L' := ((sidePath angle ks n).zip rows).map fun y => (y.1, N.map fun i => y.2.getD i 0) with hL'
    have hfold : ((sidePath angle ks n).zip rows).foldl (fun s x => applyOrder vectors s x.1 (N.map fun i => x.2.getD i 0)) s =
        L'.foldl (fun s x => applyOrder vectors s x.1 x.2) s := by
      rw [hL', List.foldl_map]
    have hkeys : L'.map Prod.fst = sidePath angle ks n := by
      rw [hL', List.map_map]
      have : (Prod.fst ∘ fun y : Nat × List Nat => (y.1, N.map fun i => y.2.getD i 0)) = Prod.fst := rfl
      rw [this, List.map_fst_zip (by omega)]
    obtain ⟨f1, f2⟩ := applyOrder_fold vectors L' s (by rw [hkeys]; exact nodup_sidePath angle ks n)
    rw [hfold]
    set s' := L'.foldl (fun s x => applyOrder vectors s x.1 x.2) s with hs'
    simp only [List.map_cons, List.nodup_cons] at hnd
    have hout : ∀ x ∈ L, ∀ m ∈ sidePath angle ks x.1, m ∉ sidePath angle ks n := by
      intro x hx m hm hm'
      have := hdis x (List.mem_cons_of_mem _ hx) (n, N) List.mem_cons_self m hm hm'
      exact hnd.1 (List.mem_map.2 ⟨x, hx, this⟩)
    obtain ⟨r, hr, g1, g2⟩ := sideLoop_spec angle ks bands vectors dv eps ord v0 V0 R L s' hnd.2
      (fun x hx => hlt x (List.mem_cons_of_mem _ hx))
      (fun x hx y hy => hdis x (List.mem_cons_of_mem _ hx) y (List.mem_cons_of_mem _ hy))
      (fun x hx m hm => by
        have h1 := f2 m (by rw [hkeys]; exact hout x hx m hm)
        have h2 := hs x (List.mem_cons_of_mem _ hx) m hm
        exact ⟨h1.2.1.trans h2.1, h1.2.2.trans h2.2⟩)
      (fun x hx => hrows x (List.mem_cons_of_mem _ hx))
    refine ⟨r, hr, ?_, ?_⟩
    · intro x hx m hm
      rcases List.mem_cons.1 hx with rfl | hx
      · have hm' : m ∈ L'.map Prod.fst := by rw [hkeys]; exact hm
        obtain ⟨y, hy, rfl⟩ := List.mem_map.1 hm'
        have h1 := f1 y hy
        have h2 := g2 y.1 fun x hx hmx => hout x hx _ hmx hm
        have h3 := hs (n, N) List.mem_cons_self _ hm
        refine ⟨y.2, h2.1.trans h1.1, ?_, ?_, ?_⟩
        · rw [hL'] at hy
          obtain ⟨z, hz, rfl⟩ := List.mem_map.1 hy
          exact hR z hz
        · rw [h2.2.1, h1.2.1, h3.1]
        · intro hv
          rw [h2.2.2, h1.2.2, if_pos hv, h3.2]
      · exact g1 x hx m hm
    · intro m hm
      have h1 := f2 m (by rw [hkeys]; exact hm (n, N) List.mem_cons_self)
      have h2 := g2 m fun x hx => hm x (List.mem_cons_of_mem _ hx)
      exact ⟨h2.1.trans h1.1, h2.2.1.trans h1.2.1, h2.2.2.trans h1.2.2⟩

/-- The order on the wedge in terms of a relation `R` between points and rows. -/
theorem orderWedge_spec (nk : Nat) (angle : Angle) (bands : Nat) (vectors : Bool) (dv : Option ℝ)
    (eps : ℝ) (ord0 : Nat → List Nat) (ord : Nat → Nat → List Nat) (v0 : Nat → Nat → ℝ) (V0 : Nat → Nat → Fin d → ℂ)
    (R : Nat → List Nat → Prop) (mrows : List (List Nat))
    (hmain : bandOrder (mainPath (wedge nk angle)).length bands (fun i => v0 ((mainPath (wedge nk angle)).getD i 0))
      (fun i => V0 ((mainPath (wedge nk angle)).getD i 0)) true dv eps ord0 = some mrows)
    (hlen : mrows.length = (mainPath (wedge nk angle)).length)
    (hrows : ∀ x ∈ (mainPath (wedge nk angle)).zip mrows, ∃ rows,
      bandOrder (sidePath angle (wedge nk angle) x.1).length bands
        (fun i => v0 ((sidePath angle (wedge nk angle) x.1).getD i x.1))
        (fun i => V0 ((sidePath angle (wedge nk angle) x.1).getD i x.1)) false dv eps (ord x.1) = some rows ∧
        rows.length = (sidePath angle (wedge nk angle) x.1).length ∧
        ∀ y ∈ (sidePath angle (wedge nk angle) x.1).zip rows, R y.1 (x.2.map fun i => y.2.getD i 0)) :
    ∃ r, orderWedge angle (wedge nk angle) bands vectors dv eps ord0 ord v0 V0 = some r ∧
      ∀ m, m < (wedge nk angle).length → Ordered vectors R v0 V0 r m := by
  have hfst : ((mainPath (wedge nk angle)).zip mrows).map Prod.fst = mainPath (wedge nk angle) :=
    List.map_fst_zip (by omega)
  have hmem : ∀ x ∈ (mainPath (wedge nk angle)).zip mrows, x.1 ∈ mainPath (wedge nk angle) := by
    intro x hx
    rw [← hfst]
    exact List.mem_map_of_mem hx
  obtain ⟨r, hr, h1, -⟩ := sideLoop_spec angle (wedge nk angle) bands vectors dv eps ord v0 V0 R
    ((mainPath (wedge nk angle)).zip mrows) ⟨fun _ => none, v0, V0⟩ (by rw [hfst]; exact nodup_mainPath _)
    (fun x hx => ((mem_mainPath _ _).1 (hmem x hx)).1)
    (fun x hx y hy m hm hm' => side_disjoint nk angle (hmem x hx) (hmem y hy) hm hm')
    (fun x _ m _ => ⟨rfl, rfl⟩) hrows
  refine ⟨r, ?_, ?_⟩
  · unfold orderWedge
    simp only
    rw [hmain]
    exact hr
  · intro m hm
    obtain ⟨n, hn, hs⟩ := side_exists nk angle hm
    rw [← hfst] at hn
    obtain ⟨x, hx, rfl⟩ := List.mem_map.1 hn
    exact h1 x hx m hs

/-! ### From the wedge to the mesh -/

theorem fillMesh_spec (nk : Nat) (angle : Angle) (K : P) (hK : OnMesh nk K) :
    ∃ n, n < (wedge nk angle).length ∧ SymEquiv angle nk (kAt (wedge nk angle) n) K ∧
      ∀ (α : Type) (y : Nat → α), fillMesh nk angle (wedge nk angle) y K = some (y n) := by
  have hnk : (0 : Int) < nk := by
    have := hK.1
    omega
  obtain ⟨p, ⟨hp, hi⟩, huniq⟩ := C20_one_per_orbit nk angle K hK
  obtain ⟨n, hn, e⟩ := kAt_surj ((mem_wedge nk angle p).2 hp)
  refine ⟨n, hn, ?_, ?_⟩
  · rw [e]
    exact ((C19_images _ _ hnk angle _).1 hi).2.2
  · intro α y
    have hiff : ∀ m, m < (wedge nk angle).length → (K ∈ images (kAt (wedge nk angle) m) nk angle ↔ m = n) := by
      intro m hm
      constructor
      · intro h
        have := huniq _ ⟨(mem_wedge nk angle _).1 (kAt_mem hm), h⟩
        exact kAt_inj hm hn (this.trans e.symm)
      · rintro rfl
        rw [e]
        exact hi
    have hgen : ∀ (l : List Nat), (∀ m ∈ l, m < (wedge nk angle).length) → ∀ f : P → Option α,
        l.foldl (fun mesh n K => if K ∈ images (kAt (wedge nk angle) n) nk angle then some (y n) else mesh K) f K =
          if n ∈ l then some (y n) else f K := by
      intro l
      induction l with
      | nil => intro _ f; simp
      | cons a l ih =>
        intro hl f
        rw [List.foldl_cons, ih (fun m hm => hl m (List.mem_cons_of_mem _ hm))]
        by_cases hna : n ∈ l
        · simp [hna]
        · by_cases ha : a = n
          · subst ha
            have := (hiff a (hl a List.mem_cons_self)).2 rfl
            simp [this]
          · have h' : ¬ K ∈ images (kAt (wedge nk angle) a) nk angle := fun h =>
              ha ((hiff a (hl a List.mem_cons_self)).1 h)
            simp [hna, h', Ne.symm ha]
    unfold fillMesh
    rw [hgen _ (by simp) _, if_pos (List.mem_range.2 hn)]

/-! ### C90 -/

/-- C90: without ordering, every mesh point gets the eigenvalues of an equivalent point; if equivalent points have the same
eigenvalues, these are its own. -/
theorem C90_unordered (nk : Nat) (angle : Angle) (ev : P → Nat → ℝ) (hsym : ∀ k q, OnMesh nk k → OnMesh nk q →
    SymEquiv angle nk k q → ev k = ev q) (K : P) (hK : OnMesh nk K) :
    dispersionFullUnordered nk angle ev K = some (ev K) := by
  obtain ⟨n, hn, hs, hf⟩ := fillMesh_spec nk angle K hK
  unfold dispersionFullUnordered
  rw [hf, hsym _ K ((C20_irreducibles nk angle _).1 ((mem_wedge nk angle _).1 (kAt_mem hn))).1 hK hs]

theorem origin_irr {nk : Nat} (h : 0 < nk) (angle : Angle) : ((0, 0) : P) ∈ irreducibles nk angle :=
  main_irr le_rfl (by exact_mod_cast h) (by simp)

theorem main_pos {nk : Nat} (h : 0 < nk) (angle : Angle) : 0 < (mainPath (wedge nk angle)).length := by
  obtain ⟨n, hn, e⟩ := kAt_surj ((mem_wedge nk angle _).2 (origin_irr h angle))
  exact List.length_pos_of_mem ((mem_mainPath _ _).2 ⟨hn, by rw [e]⟩)

/-- C90: `dispersion_full` succeeds. At every mesh point, the order is a permutation, and the eigenvalues and eigenvectors are
those of one equivalent irreducible point in this order. If equivalent points have the same eigenvalues, the result contains
the eigenvalues of the mesh point itself. -/
theorem C90_permutation (nk : Nat) (hnk : 0 < nk) (angle : Angle) (bands : Nat) (vectors : Bool) (dv : Option ℝ) (eps : ℝ)
    (ord0 : Nat → List Nat) (ho0 : ∀ n, (ord0 n).Perm (List.range bands)) (ord : Nat → Nat → List Nat)
    (ho : ∀ m n, (ord m n).Perm (List.range bands)) (ev : P → Nat → ℝ) (evec : P → Nat → Fin d → ℂ) :
    ∃ r, dispersionFull nk angle bands vectors dv eps ord0 ord ev evec = some r ∧ ∀ K, OnMesh nk K →
      ∃ k row, OnMesh nk k ∧ SymEquiv angle nk k K ∧ r.o K = some (some row) ∧ row.Perm (List.range bands) ∧
        r.v K = some (fun i => ev k (row.getD i 0)) ∧ (vectors = true → r.V K = some fun i => evec k (row.getD i 0)) ∧
        ((∀ k q, OnMesh nk k → OnMesh nk q → SymEquiv angle nk k q → ev k = ev q) →
          r.v K = some fun i => ev K (row.getD i 0)) := by
  set ks := wedge nk angle with hks
  obtain ⟨mrows, hmain, hml, hmp⟩ := C33_permutation (mainPath ks).length bands (main_pos hnk angle)
    (fun i => ev (kAt ks ((mainPath ks).getD i 0))) (fun i => evec (kAt ks ((mainPath ks).getD i 0))) true dv eps ord0 ho0
  obtain ⟨r, hr, hall⟩ := orderWedge_spec nk angle bands vectors dv eps ord0 ord (fun n => ev (kAt ks n))
    (fun n => evec (kAt ks n)) (fun _ row => row.Perm (List.range bands)) mrows hmain hml (by
      intro x hx
      have hx1 : x.1 ∈ mainPath ks := (List.of_mem_zip hx).1
      have hx2 : x.2 ∈ mrows := (List.of_mem_zip hx).2
      have hself := self_mem_sidePath angle ks ((mem_mainPath _ _).1 hx1).1
      obtain ⟨rows, h1, h2, h3⟩ := C33_permutation (sidePath angle ks x.1).length bands (List.length_pos_of_mem hself)
        (fun i => ev (kAt ks ((sidePath angle ks x.1).getD i x.1)))
        (fun i => evec (kAt ks ((sidePath angle ks x.1).getD i x.1))) false dv eps (ord x.1) (ho x.1)
      exact ⟨rows, h1, h2, fun y hy => map_getD_perm y.2 x.2 bands (h3 y.2 (List.of_mem_zip hy).2) (hmp x.2 hx2)⟩)
  refine ⟨_, by unfold dispersionFull; simp only; rw [← hks, hr]; rfl, ?_⟩
  intro K hK
  obtain ⟨n, hn, hs, hf⟩ := fillMesh_spec nk angle K hK
  obtain ⟨row, h1, h2, h3, h4⟩ := hall n hn
  have hmesh : OnMesh nk (kAt ks n) := ((C20_irreducibles nk angle _).1 ((mem_wedge nk angle _).1 (kAt_mem hn))).1
  refine ⟨kAt ks n, row, hmesh, hs, ?_, h2, ?_, ?_, ?_⟩
  · exact (hf _ r.o).trans (congrArg some h1)
  · exact (hf _ r.v).trans (congrArg some h3)
  · intro hv
    exact (hf _ r.V).trans (congrArg some (h4 hv))
  · intro hsym
    rw [← hsym _ K hmesh hK hs]
    exact (hf _ r.v).trans (congrArg some h3)

/-- Ordering of a path along which the states are the same up to order and phase, with arbitrary order at the first point. -/
theorem bandOrder_track (points bands : Nat) (hpts : 0 < points) (v : Nat → Nat → ℝ) (V : Nat → Nat → Fin d → ℂ)
    (dv : Option ℝ) (eps : ℝ) (ord : Nat → List Nat) (ho : ∀ n, (ord n).Perm (List.range bands)) (e : Nat → Fin d → ℂ)
    (he : Orthonormal' bands e) (p : Nat → Equiv.Perm Nat) (hp : ∀ n i, p n i < bands ↔ i < bands) (c : Nat → Nat → ℂ)
    (hc : ∀ n i, ‖c n i‖ = 1) (hV : ∀ n i, i < bands → V n (p n i) = fun x => c n i * e i x)
    (hdv : ∀ dv', dv = some dv' → ∀ n0 n i, i < bands → |v n0 (p n0 i) - v n (p n i)| < dv') :
    bandOrder points bands v V false dv eps ord =
      some ((List.range points).map fun n => (List.range bands).map fun i => p n ((p 0).symm i)) := by
  have hlt : ∀ i, (p 0).symm i < bands ↔ i < bands := by
    intro i
    rw [← hp 0, Equiv.apply_symm_apply]
  refine C33_tracking points bands hpts v V dv eps ord ho (fun i => e ((p 0).symm i)) ?_ (fun n i => p n ((p 0).symm i)) ?_ ?_
    (fun n i => c n ((p 0).symm i)) (fun n i => hc n _) ?_ ?_
  · intro i hi j hj
    have := he ((p 0).symm i) ((hlt i).2 hi) ((p 0).symm j) ((hlt j).2 hj)
    rw [this]
    simp
  · intro n
    refine (List.perm_ext_iff_of_nodup ?_ List.nodup_range).2 fun a => ?_
    · exact List.nodup_range.map fun i j h => (p 0).symm.injective ((p n).injective h)
    · simp only [List.mem_map, List.mem_range]
      constructor
      · rintro ⟨i, hi, rfl⟩
        exact (hp n _).2 ((hlt i).2 hi)
      · intro ha
        refine ⟨p 0 ((p n).symm a), ?_, by simp⟩
        rw [hp 0, ← hp n, Equiv.apply_symm_apply]
        exact ha
  · intro i
    simp
  · intro n i hi
    exact hV n _ ((hlt i).2 hi)
  · intro dv' h n0 n i hi
    exact hdv dv' h n0 n _ ((hlt i).2 hi)

theorem zip_map_range {α : Type} (l : List Nat) (f : Nat → α) (z : Nat × α) (n : Nat)
    (hz : z ∈ l.zip ((List.range l.length).map f)) : ∃ i, i < l.length ∧ z.1 = l.getD i n ∧ z.2 = f i := by
  obtain ⟨i, hi, e⟩ := List.getElem_of_mem hz
  rw [List.length_zip, List.length_map, List.length_range, Nat.min_self] at hi
  refine ⟨i, hi, ?_, ?_⟩
  · rw [← e, List.getElem_zip, List.getD_eq_getElem?_getD, List.getElem?_eq_getElem hi]
    rfl
  · rw [← e, List.getElem_zip]
    simp

/-- C90 (tracking): if the eigenvectors at all points are the same orthonormal states in an order that changes from point to point
and up to arbitrary phases, the bands of the result belong to the same state all over the mesh: there is one list of states `τ`
such that band number `i` is state `τ[i]` at every mesh point. -/
theorem C90_tracking (nk : Nat) (hnk : 0 < nk) (angle : Angle) (bands : Nat) (vectors : Bool) (dv : Option ℝ) (eps : ℝ)
    (ord0 : Nat → List Nat) (ho0 : ∀ n, (ord0 n).Perm (List.range bands)) (ord : Nat → Nat → List Nat)
    (ho : ∀ m n, (ord m n).Perm (List.range bands)) (ev : P → Nat → ℝ) (evec : P → Nat → Fin d → ℂ)
    (e : Nat → Fin d → ℂ) (he : Orthonormal' bands e) (p : P → Equiv.Perm Nat) (hp : ∀ k i, p k i < bands ↔ i < bands)
    (c : P → Nat → ℂ) (hc : ∀ k i, ‖c k i‖ = 1)
    (hV : ∀ k, OnMesh nk k → ∀ i, i < bands → evec k (p k i) = fun x => c k i * e i x)
    (hdv : ∀ dv', dv = some dv' → ∀ k q, OnMesh nk k → OnMesh nk q → ∀ i, i < bands →
      |ev k (p k i) - ev q (p q i)| < dv') :
    ∃ (r : Mesh d) (τ : List Nat), dispersionFull nk angle bands vectors dv eps ord0 ord ev evec = some r ∧ τ.Perm (List.range bands) ∧
      ∀ K, OnMesh nk K → ∃ k, OnMesh nk k ∧ SymEquiv angle nk k K ∧ r.o K = some (some (τ.map (p k))) := by
  set ks := wedge nk angle with hks
  have hmesh : ∀ n, OnMesh nk (kAt ks n) := by
    intro n
    rcases Nat.lt_or_ge n ks.length with h | h
    · exact ((C20_irreducibles nk angle _).1 ((mem_wedge nk angle _).1 (kAt_mem h))).1
    · have : kAt ks n = (0, 0) := by
        unfold kAt
        rw [List.getD_eq_getElem?_getD, List.getElem?_eq_none h]
        rfl
      rw [this]
      exact ((C20_irreducibles nk angle _).1 (origin_irr hnk angle)).1
  obtain ⟨o, mrows, cols, g1, g2, g3, g4, -⟩ := C33_by_mean (mainPath ks).length bands (main_pos hnk angle)
    (fun i => ev (kAt ks ((mainPath ks).getD i 0))) (fun i => evec (kAt ks ((mainPath ks).getD i 0))) dv eps ord0 ho0
  have hm := bandOrder_track (mainPath ks).length bands (main_pos hnk angle)
    (fun i => ev (kAt ks ((mainPath ks).getD i 0))) (fun i => evec (kAt ks ((mainPath ks).getD i 0))) dv eps ord0 ho0 e he
    (fun i => p (kAt ks ((mainPath ks).getD i 0))) (fun n i => hp _ i) (fun i => c (kAt ks ((mainPath ks).getD i 0)))
    (fun n i => hc _ i) (fun n i hi => hV _ (hmesh _) i hi) (fun dv' h n0 n i hi => hdv dv' h _ _ (hmesh _) (hmesh _) i hi)
  rw [g1, Option.some.injEq] at hm
  set p0 := p (kAt ks ((mainPath ks).getD 0 0)) with hp0
  set τ := cols.map p0.symm with hτ
  have hcols : ∀ i ∈ cols, i < bands := fun i hi => List.mem_range.1 (g3.mem_iff.1 hi)
  have hτp : τ.Perm (List.range bands) := by
    refine (List.perm_ext_iff_of_nodup ?_ List.nodup_range).2 fun a => ?_
    · exact (g3.nodup_iff.2 List.nodup_range).map p0.symm.injective
    · simp only [hτ, List.mem_map, List.mem_range]
      constructor
      · rintro ⟨i, hi, rfl⟩
        rw [← hp (kAt ks ((mainPath ks).getD 0 0)), ← hp0, Equiv.apply_symm_apply]
        exact hcols i hi
      · intro ha
        refine ⟨p0 a, ?_, by simp⟩
        rw [g3.mem_iff, List.mem_range, hp0, hp]
        exact ha
  have hτlt : ∀ i ∈ τ, i < bands := fun i hi => List.mem_range.1 (hτp.mem_iff.1 hi)
  have hgetD : ∀ (f : Nat → Nat) i, i < bands → ((List.range bands).map f).getD i 0 = f i := by
    intro f i hi
    rw [List.getD_eq_getElem?_getD]
    simp [hi]
  have hmr : mrows = (List.range (mainPath ks).length).map fun n => τ.map (p (kAt ks ((mainPath ks).getD n 0))) := by
    rw [g4, hm, List.map_map]
    refine List.map_congr_left fun n _ => ?_
    simp only [Function.comp, hτ, List.map_map]
    refine List.map_congr_left fun i hi => ?_
    rw [hgetD _ i (hcols i hi)]
    rfl
  obtain ⟨r, hr, hall⟩ := orderWedge_spec nk angle bands vectors dv eps ord0 ord (fun n => ev (kAt ks n))
    (fun n => evec (kAt ks n)) (fun m row => row = τ.map (p (kAt ks m))) mrows g2 (by rw [hmr]; simp [hks]) (by
      intro x hx
      have hx1 : x.1 ∈ mainPath ks := (List.of_mem_zip hx).1
      have hself := self_mem_sidePath angle ks ((mem_mainPath _ _).1 hx1).1
      have hx2 : x.2 = τ.map (p (kAt ks x.1)) := by
        rw [hmr] at hx
        obtain ⟨i, -, e1, e2⟩ := zip_map_range _ _ x 0 hx
        rw [e2, e1]
      have hs := bandOrder_track (sidePath angle ks x.1).length bands (List.length_pos_of_mem hself)
        (fun i => ev (kAt ks ((sidePath angle ks x.1).getD i x.1)))
        (fun i => evec (kAt ks ((sidePath angle ks x.1).getD i x.1))) dv eps (ord x.1) (ho x.1) e he
        (fun i => p (kAt ks ((sidePath angle ks x.1).getD i x.1))) (fun n i => hp _ i)
        (fun i => c (kAt ks ((sidePath angle ks x.1).getD i x.1))) (fun n i => hc _ i)
        (fun n i hi => hV _ (hmesh _) i hi) (fun dv' h n0 n i hi => hdv dv' h _ _ (hmesh _) (hmesh _) i hi)
      have hh : (sidePath angle ks x.1).getD 0 x.1 = x.1 := side_head nk angle hx1
      simp only [hh] at hs
      refine ⟨_, hs, by simp [hks], ?_⟩
      intro y hy
      obtain ⟨i, -, e1, e2⟩ := zip_map_range _ _ y x.1 hy
      rw [e2, e1, hx2, List.map_map]
      refine List.map_congr_left fun j hj => ?_
      simp only [Function.comp]
      rw [hgetD _ _ ((hp _ _).2 (hτlt j hj))]
      simp [hks])
  refine ⟨_, τ, by unfold dispersionFull; simp only; rw [← hks, hr]; rfl, hτp, ?_⟩
  intro K hK
  obtain ⟨n, hn, hs, hf⟩ := fillMesh_spec nk angle K hK
  obtain ⟨row, h1, h2, -, -⟩ := hall n hn
  refine ⟨kAt ks n, hmesh n, hs, ?_⟩
  rw [← h2]
  exact (hf _ r.o).trans (congrArg some h1)

/-- C90: `dispersion_full_nosym` with `order=True` yields the same eigenvalues as `dispersion_full` if equivalent points have the same
eigenvalues. -/
theorem C90_nosym (nk : Nat) (hnk : 0 < nk) (angle : Angle) (bands : Nat) (vectors : Bool) (dv : Option ℝ) (eps : ℝ)
    (ord0 : Nat → List Nat) (ho0 : ∀ n, (ord0 n).Perm (List.range bands)) (ord : Nat → Nat → List Nat)
    (ho : ∀ m n, (ord m n).Perm (List.range bands)) (ev : P → Nat → ℝ) (evec : P → Nat → Fin d → ℂ)
    (hsym : ∀ k q, OnMesh nk k → OnMesh nk q → SymEquiv angle nk k q → ev k = ev q) :
    ∃ r, dispersionFull nk angle bands vectors dv eps ord0 ord ev evec = some r ∧ ∀ K, OnMesh nk K →
      ∃ row, r.o K = some (some row) ∧ row.Perm (List.range bands) ∧ r.v K = some (nosymOrder row (ev K) (evec K)).1 := by
  obtain ⟨r, hr, h⟩ := C90_permutation nk hnk angle bands vectors dv eps ord0 ho0 ord ho ev evec
  refine ⟨r, hr, fun K hK => ?_⟩
  obtain ⟨k, row, -, -, h1, h2, -, -, h3⟩ := h K hK
  exact ⟨row, h1, h2, h3 hsym⟩

/-- The hypotheses of the theorems above are met by two bands that are swapped at the zone center; the wedge of a 4 x 4 mesh has four
points. -/
example : wedge 4 .a60 = [(0, 0), (0, 1), (0, 2), (1, 1)] ∧ mainPath (wedge 4 .a60) = [0, 1, 2] ∧
    sidePath .a60 (wedge 4 .a60) 1 = [1, 3] := by decide +kernel

example : (∀ (k : P) i, (if k = (0, 0) then Equiv.swap 0 1 else 1 : Equiv.Perm Nat) i < 2 ↔ i < 2) ∧
    (∀ k q : P, OnMesh 4 k → OnMesh 4 q → SymEquiv .a60 4 k q → (fun i : Nat => (i : ℝ)) = fun i : Nat => (i : ℝ)) := by
  refine ⟨fun k i => ?_, fun _ _ _ _ _ => rfl⟩
  split
  · rw [Equiv.swap_apply_def]
    split
    · omega
    · split <;> omega
  · simp

end Verif.Bands
