import Verif.Bravais.Model
import Verif.Text.Model
import Mathlib.Tactic.Linarith
import Mathlib.Tactic.FieldSimp
import Mathlib.Algebra.Order.BigOperators.Group.List

/-!
# Structures from VASP and densities from `pp.x`: `bravais.readPOSCAR` and `el.read_pp_density`

A file is the list of its lines. Numbers in files are rational. Exceptions are `none`.
-/

namespace Verif.Poscar

open Verif.Text (Str words readFloat readInt)
open Verif.Bravais

/-! ### Models -/

/-- `list(map(float, next(POSCAR).split()))` -/
def floats (l : Str) : Option (List ℚ) := (words l).mapM readFloat

/-- `elphmod/bravais.py` 2560: assignment of the first three columns to a row with three elements, with broadcast of a single number. -/
def position (l : Str) : Option (List ℚ) :=
  match ((words l).take 3).mapM readFloat with
  | some [x, y, z] => some [x, y, z]
  | some [x] => some [x, x, x]
  | _ => none

/-- Assignment to a key of a dictionary. -/
def setKey {α : Type} (d : List (Str × α)) (k : Str) (v : α) : List (Str × α) :=
  if d.any fun e => e.1 == k then d.map fun e => if e.1 == k then (k, v) else e else d ++ [(k, v)]

/-- `elphmod/bravais.py` 2556-2560: loop over elements. -/
def readAtoms : List (Str × Int) → List Str → List (Str × List (List ℚ)) → Option (List (Str × List (List ℚ)))
  | [], _, d => some d
  | (element, number) :: rest, ls, d =>
    if number < 0 ∨ ls.length < number.toNat then none
    else ((ls.take number.toNat).mapM position).bind fun r => readAtoms rest (ls.drop number.toNat) (setKey d element r)

/-- `elphmod/bravais.py` 2525-2562 (`readPOSCAR`) -/
def readPOSCAR : List Str → Option ((List ℚ × List ℚ × List ℚ) × List (Str × List (List ℚ)))
  | _ :: a :: l1 :: l2 :: l3 :: els :: nums :: _ :: _ :: ls =>
    match words a with
    | [w] =>
      (readFloat w).bind fun _ => (floats l1).bind fun t1 => (floats l2).bind fun t2 => (floats l3).bind fun t3 =>
        ((words nums).mapM readInt).bind fun numbers => (readAtoms ((words els).zip numbers) ls []).map fun atoms => ((t1, t2, t3), atoms)
    | _ => none
  | _ => none

/-- `elphmod/el.py` 1788-1789 (`table`) of given lines; rows must have the same number of columns. -/
def table (ls : List (List Str)) : Option (List (List ℚ)) :=
  (ls.mapM fun l : List Str => l.mapM readFloat).bind fun t => if t.all fun r => r.length == (t.headD []).length then some t else none

/-- `elphmod/el.py` 1750-1838 (`read_pp_density`). The file is only accessed via `cells` (lines 1779-1784), which skips blank lines. Missing lines raise an
exception. Negative numbers of points are excluded. -/
noncomputable def readPpDensity (ls : List Str) : Option (List ℚ × ℝ) :=
  match (ls.map words).filter (fun l => !l.isEmpty) with
  | head :: cell :: unknown :: rest =>
    ((head.take 6).mapM readInt).bind fun fft =>
    match (head.drop 6).mapM readInt with
    | some [nat, ntyp] =>
      ((cell.head?).bind readInt).bind fun ibrav => ((cell.drop 1).mapM readFloat).bind fun celldm =>
      ((unknown[2]?).bind readFloat).bind fun _ =>
      (latgen ibrav ![1, 1, 1, 0, 0, 0]).bind fun A => (celldm[2]?).bind fun c : ℚ => (celldm[0]?).bind fun alat : ℚ =>
      let A : M3 := fun i j => if i = 2 ∧ j = 2 then (c : ℝ) else A i j
      let volume := dot3 (A 0) (cross (A 1) (A 2)) * (alat : ℝ) ^ 3
      if rest.length < ntyp.toNat + nat.toNat then none
      else ((rest.take ntyp.toNat).mapM fun l => (l[1]?).bind fun _ => (l[2]?).bind readFloat).bind fun _ =>
        (table ((rest.drop ntyp.toNat).take nat.toNat)).bind fun tau =>
        if tau.isEmpty then none
        else
          let N := (fft.take 3).prod
          let data := rest.drop (ntyp.toNat + nat.toNat)
          if N < 0 ∨ data.length < (N / 5).toNat then none
          else (table (data.take (N / 5).toNat)).bind fun rho =>
            if (rho.flatten.length : Int) ≠ N then none else some (rho.flatten, ((rho.flatten.sum : ℚ) : ℝ) / (N : ℝ) * volume)
    | _ => none
  | _ => none

/-! ### Structures from VASP -/

/-- The structure described by a VASP file: scaling factor, lattice vectors in units of this factor, blocks of positions. -/
structure Structure where
  scale : ℚ
  t1 : ℚ × ℚ × ℚ
  t2 : ℚ × ℚ × ℚ
  t3 : ℚ × ℚ × ℚ
  blocks : List (Str × List (ℚ × ℚ × ℚ))

def toList (t : ℚ × ℚ × ℚ) : List ℚ := [t.1, t.2.1, t.2.2]

/-- Lattice vectors of the structure. -/
def Structure.lattice (s : Structure) : List ℚ × List ℚ × List ℚ :=
  (toList (s.scale * s.t1.1, s.scale * s.t1.2.1, s.scale * s.t1.2.2), toList (s.scale * s.t2.1, s.scale * s.t2.2.1, s.scale * s.t2.2.2),
    toList (s.scale * s.t3.1, s.scale * s.t3.2.1, s.scale * s.t3.2.2))

/-- A line with the given numbers in the first columns. -/
def Row (l : Str) (t : ℚ × ℚ × ℚ) : Prop := ∃ x y z r, words l = x :: y :: z :: r ∧ readFloat x = some t.1 ∧ readFloat y = some t.2.1 ∧ readFloat z = some t.2.2

/-- A line with exactly three numbers. -/
def Row3 (l : Str) (t : ℚ × ℚ × ℚ) : Prop := ∃ x y z, words l = [x, y, z] ∧ readFloat x = some t.1 ∧ readFloat y = some t.2.1 ∧ readFloat z = some t.2.2

/-- The file describes the structure; `extra` are the lines between the numbers of atoms and the positions (one line with the type of coordinates, with a
line for selective dynamics before if there are flags after the coordinates), `more` are the lines after the positions. -/
def Describes (ls : List Str) (s : Structure) (extra more : List Str) : Prop :=
  ∃ title a l1 l2 l3 els nums pos, ls = title :: a :: l1 :: l2 :: l3 :: els :: nums :: (extra ++ (pos ++ more)) ∧
    (∃ w, words a = [w] ∧ readFloat w = some s.scale) ∧ Row3 l1 s.t1 ∧ Row3 l2 s.t2 ∧ Row3 l3 s.t3 ∧ words els = s.blocks.map Prod.fst ∧
    (words nums).mapM readInt = some (s.blocks.map fun b => (b.2.length : Int)) ∧ List.Forall₂ Row pos (s.blocks.flatMap Prod.snd)

theorem row3_floats {l : Str} {t : ℚ × ℚ × ℚ} (h : Row3 l t) : floats l = some (toList t) := by
  obtain ⟨x, y, z, h, hx, hy, hz⟩ := h
  simp [floats, h, hx, hy, hz, toList]

theorem row_position {l : Str} {t : ℚ × ℚ × ℚ} (h : Row l t) : position l = some (toList t) := by
  obtain ⟨x, y, z, r, h, hx, hy, hz⟩ := h
  simp [position, h, hx, hy, hz, toList]

theorem rows_position {ls : List Str} {ts : List (ℚ × ℚ × ℚ)} (h : List.Forall₂ Row ls ts) : ls.mapM position = some (ts.map toList) := by
  induction h with
  | nil => rfl
  | cons h _ ih => simp [row_position h, ih]

theorem setKey_new {α : Type} (d : List (Str × α)) (k : Str) (v : α) (h : ∀ e ∈ d, e.1 ≠ k) : setKey d k v = d ++ [(k, v)] := by
  unfold setKey
  rw [if_neg]
  rw [List.any_eq_true]
  rintro ⟨e, he, hk⟩
  exact h e he (by simpa using hk)

theorem readAtoms_step (element : Str) (ts : List (ℚ × ℚ × ℚ)) (rest : List (Str × Int)) (pos ls : List Str) (d : List (Str × List (List ℚ)))
    (h : List.Forall₂ Row pos ts) :
    readAtoms ((element, (ts.length : Int)) :: rest) (pos ++ ls) d = readAtoms rest ls (setKey d element (ts.map toList)) := by
  have hl : pos.length = ts.length := h.length_eq
  rw [readAtoms, if_neg (by simp [hl]), Int.toNat_natCast, ← hl, List.take_left, rows_position h, List.drop_left, Option.bind_some]

theorem zip_map {α β γ : Type} (f : α → β) (g : α → γ) (l : List α) : (l.map f).zip (l.map g) = l.map fun x => (f x, g x) := by
  induction l with
  | nil => rfl
  | cons a l ih => simp [ih]

theorem readAtoms_eq (blocks : List (Str × List (ℚ × ℚ × ℚ))) (pos more : List Str) (d : List (Str × List (List ℚ)))
    (h : List.Forall₂ Row pos (blocks.flatMap Prod.snd)) (hn : (blocks.map Prod.fst).Nodup) (hd : ∀ e ∈ d, ∀ b ∈ blocks, e.1 ≠ b.1) :
    readAtoms (blocks.map fun b => (b.1, (b.2.length : Int))) (pos ++ more) d = some (d ++ blocks.map fun b => (b.1, b.2.map toList)) := by
  induction blocks generalizing pos d with
  | nil => simp [readAtoms]
  | cons b blocks ih =>
    rw [List.flatMap_cons] at h
    obtain ⟨p1, p2, h1, h2, rfl⟩ : ∃ p1 p2, List.Forall₂ Row p1 b.2 ∧ List.Forall₂ Row p2 (blocks.flatMap Prod.snd) ∧ pos = p1 ++ p2 := by
      refine ⟨pos.take b.2.length, pos.drop b.2.length, ?_, ?_, (List.take_append_drop _ _).symm⟩
      · have := List.forall₂_take b.2.length h
        rwa [List.take_left] at this
      · have := List.forall₂_drop b.2.length h
        rwa [List.drop_left] at this
    rw [List.map_cons, List.append_assoc, readAtoms_step _ _ _ _ _ _ h1]
    rw [List.map_cons, List.nodup_cons] at hn
    rw [setKey_new d b.1 _ fun e he => hd e he b List.mem_cons_self]
    rw [ih p2 _ h2 hn.2]
    · simp
    · intro e he c hc
      rw [List.mem_append, List.mem_singleton] at he
      rcases he with he | rfl
      · exact hd e he c (List.mem_cons_of_mem _ hc)
      · intro heq
        exact hn.1 (heq ▸ List.mem_map_of_mem hc)

theorem readPOSCAR_eq (ls : List Str) (s : Structure) (extra more : List Str) (h : Describes ls s extra more) (h2 : extra.length = 2)
    (hn : (s.blocks.map Prod.fst).Nodup) :
    readPOSCAR ls = some ((toList s.t1, toList s.t2, toList s.t3), s.blocks.map fun b => (b.1, b.2.map toList)) := by
  obtain ⟨title, a, l1, l2, l3, els, nums, pos, rfl, ⟨w, hw, hs⟩, h1, h2', h3, he, hm, hp⟩ := h
  obtain ⟨x, y, rfl⟩ := List.length_eq_two.1 h2
  simp only [List.cons_append, List.nil_append, readPOSCAR, hw, hs, Option.bind_some, row3_floats h1, row3_floats h2', row3_floats h3, hm, he, zip_map]
  rw [readAtoms_eq _ _ _ _ hp hn (by simp)]
  rfl

/-- C148: a file with scaling factor one, selective dynamics and distinct names of elements yields the lattice vectors and positions. -/
theorem C148_poscar_partial (ls : List Str) (s : Structure) (extra more : List Str) (h : Describes ls s extra more) (h2 : extra.length = 2)
    (hn : (s.blocks.map Prod.fst).Nodup) (h1 : s.scale = 1) :
    readPOSCAR ls = some (s.lattice, s.blocks.map fun b => (b.1, b.2.map toList)) := by
  rw [readPOSCAR_eq ls s extra more h h2 hn]
  simp [Structure.lattice, h1]

/-- C148 fails for all other scaling factors: the factor is ignored. -/
theorem C148_poscar_scale_violated (ls : List Str) (s : Structure) (extra more : List Str) (h : Describes ls s extra more) (h2 : extra.length = 2)
    (hn : (s.blocks.map Prod.fst).Nodup) (h1 : s.scale ≠ 1) (ht : s.t1 ≠ (0, 0, 0)) : ∃ out, readPOSCAR ls = some out ∧ out.1 ≠ s.lattice := by
  refine ⟨_, readPOSCAR_eq ls s extra more h h2 hn, ?_⟩
  intro he
  have h' := congrArg Prod.fst he
  simp only [Structure.lattice, toList, List.cons.injEq, and_true] at h'
  have key : ∀ x : ℚ, x = s.scale * x → x = 0 := by
    intro x hx
    by_contra h0
    exact h1 (mul_right_cancel₀ h0 (by linarith))
  apply ht
  rw [← Prod.mk.eta (p := s.t1), ← Prod.mk.eta (p := s.t1.2), key _ h'.1, key _ h'.2.1, key _ h'.2.2]

theorem readAtoms_length (blocks : List (Str × Int)) (ls : List Str) (d : List (Str × List (List ℚ))) (h : (readAtoms blocks ls d).isSome) :
    (blocks.map fun b => b.2.toNat).sum ≤ ls.length := by
  induction blocks generalizing ls d with
  | nil => simp
  | cons b blocks ih =>
    unfold readAtoms at h
    split at h
    · simp at h
    · next hb =>
      cases hp : (ls.take b.2.toNat).mapM position with
      | none => simp [hp] at h
      | some r =>
        rw [hp, Option.bind_some] at h
        have := ih _ _ h
        rw [List.length_drop] at this
        rw [List.map_cons, List.sum_cons]
        push Not at hb
        omega

/-- C148 fails for files without selective dynamics: the first position is skipped and the file ends too early. -/
theorem C148_poscar_direct_violated (ls : List Str) (s : Structure) (extra : List Str) (h : Describes ls s extra []) (h1 : extra.length = 1)
    (hb : s.blocks.flatMap Prod.snd ≠ []) : readPOSCAR ls = none := by
  obtain ⟨title, a, l1, l2, l3, els, nums, pos, rfl, ⟨w, hw, hs⟩, h1', h2', h3, he, hm, hp⟩ := h
  obtain ⟨x, rfl⟩ := List.length_eq_one_iff.1 h1
  have hl := hp.length_eq
  cases pos with
  | nil =>
    rw [List.length_nil] at hl
    exact absurd (List.length_eq_zero_iff.1 hl.symm) hb
  | cons p pos =>
    simp only [List.cons_append, List.nil_append, readPOSCAR, hw, hs, Option.bind_some, row3_floats h1', row3_floats h2', row3_floats h3, hm, he, zip_map]
    cases hr : readAtoms (s.blocks.map fun b => (b.1, (b.2.length : Int))) (pos ++ []) [] with
    | none => rfl
    | some out =>
      exfalso
      have := readAtoms_length _ _ _ (by rw [hr]; rfl)
      rw [List.map_map, List.append_nil] at this
      rw [List.length_cons, List.length_flatMap] at hl
      have e : (s.blocks.map ((fun b : Str × Int => b.2.toNat) ∘ fun b => (b.1, (b.2.length : Int)))) = s.blocks.map fun b => b.2.length := by
        refine List.map_congr_left fun b _ => ?_
        simp
      rw [e] at this
      omega

/-- C148 fails if an element is listed twice: the atoms of the first block are lost. -/
theorem C148_poscar_repeat_violated (ls : List Str) (s : Structure) (extra more : List Str) (h : Describes ls s extra more) (h2 : extra.length = 2)
    (X : Str) (r1 r2 : List (ℚ × ℚ × ℚ)) (hs : s.blocks = [(X, r1), (X, r2)]) :
    ∃ t, readPOSCAR ls = some (t, [(X, r2.map toList)]) := by
  obtain ⟨title, a, l1, l2, l3, els, nums, pos, rfl, ⟨w, hw, hsc⟩, h1', h2', h3, he, hm, hp⟩ := h
  obtain ⟨x, y, rfl⟩ := List.length_eq_two.1 h2
  refine ⟨(toList s.t1, toList s.t2, toList s.t3), ?_⟩
  simp only [List.cons_append, List.nil_append, readPOSCAR, hw, hsc, Option.bind_some, row3_floats h1', row3_floats h2', row3_floats h3, hm, he, zip_map]
  rw [hs] at hp ⊢
  simp only [List.flatMap_cons, List.flatMap_nil, List.append_nil] at hp
  have p1 := List.forall₂_take r1.length hp
  have p2 := List.forall₂_drop r1.length hp
  rw [List.take_left] at p1
  rw [List.drop_left] at p2
  conv_lhs => rw [← List.take_append_drop r1.length pos]
  rw [List.append_assoc]
  simp only [List.map_cons, List.map_nil]
  rw [readAtoms_step _ _ _ _ _ _ p1, readAtoms_step _ _ _ _ _ _ p2]
  simp [readAtoms, setKey]

/-! ### Densities from `pp.x` -/

/-- Content of the file: numbers of points along the axes, lattice, density. -/
structure Density where
  n1 : Nat
  n2 : Nat
  n3 : Nat
  ibrav : Int
  celldm : Fin 6 → ℚ
  rho : List ℚ

/-- A line with the given numbers. -/
def Numbers (l : List Str) (xs : List ℚ) : Prop := l.mapM readFloat = some xs

/-- The words in the lines of the file without those that are blank, as written by `pp.x`: dimensions, lattice, cutoffs, types, atoms and density with five
numbers per line. -/
def Contains (ls : List Str) (f : Density) : Prop :=
  ∃ x1 x2 x3 y1 y2 y3 m1 m2 m3 nat ntyp ib cd unknown types atoms data, (ls.map words).filter (fun l => !l.isEmpty) =
      [x1, x2, x3, y1, y2, y3, nat, ntyp] :: (ib :: cd) :: unknown :: (types ++ (atoms ++ data)) ∧
    (readInt x1 = some (f.n1 : Int) ∧ readInt x2 = some (f.n2 : Int) ∧ readInt x3 = some (f.n3 : Int)) ∧
    (readInt y1 = some m1 ∧ readInt y2 = some m2 ∧ readInt y3 = some m3) ∧
    readInt nat = some (atoms.length : Int) ∧ readInt ntyp = some (types.length : Int) ∧ readInt ib = some f.ibrav ∧
    Numbers cd [f.celldm 0, f.celldm 1, f.celldm 2, f.celldm 3, f.celldm 4, f.celldm 5] ∧ (∃ w x, unknown[2]? = some w ∧ readFloat w = some x) ∧
    (∀ l ∈ types, ∃ i X v x r, l = i :: X :: v :: r ∧ readFloat v = some x) ∧ atoms ≠ [] ∧ (∀ l ∈ atoms, ∃ xs, Numbers l xs ∧ xs.length = 5) ∧
    ∃ rows, List.Forall₂ Numbers data rows ∧ rows.flatten = f.rho ∧ f.rho.length = f.n1 * f.n2 * f.n3 ∧ (∀ r ∈ rows, 0 < r.length) ∧
      (∀ r ∈ rows.dropLast, r.length = 5) ∧ ∀ r ∈ rows, r.length ≤ 5

/-- Volume of the unit cell with the lattice parameters in the file. -/
noncomputable def Density.volume (f : Density) : Option ℝ := (latgen f.ibrav fun i => (f.celldm i : ℝ)).map fun A => |dot3 (A 0) (cross (A 1) (A 2))|

theorem table_eq (data : List (List Str)) (rows : List (List ℚ)) (h : List.Forall₂ Numbers data rows) (n : Nat) (hn : ∀ r ∈ rows, r.length = n) :
    table data = some rows := by
  have e : (data.mapM fun l : List Str => l.mapM readFloat) = some rows := by
    induction h with
    | nil => rfl
    | cons h _ ih =>
      have := ih fun r hr => hn r (List.mem_cons_of_mem _ hr)
      unfold Numbers at h
      simp [h, this]
  unfold table
  rw [e, Option.bind_some, if_pos]
  rw [List.all_eq_true]
  intro r hr
  cases rows with
  | nil => simp at hr
  | cons r0 rows =>
    rw [List.headD_cons, hn r hr, hn r0 List.mem_cons_self]
    simp

theorem flatten_length (rows : List (List ℚ)) (n : Nat) (h : ∀ r ∈ rows, r.length = n) : rows.flatten.length = rows.length * n := by
  induction rows with
  | nil => simp
  | cons r rows ih =>
    rw [List.flatten_cons, List.length_append, h r List.mem_cons_self, ih fun r hr => h r (List.mem_cons_of_mem _ hr), List.length_cons]
    ring

theorem rows_cases (rows : List (List ℚ)) (h0 : ∀ r ∈ rows, 0 < r.length) (h5 : ∀ r ∈ rows.dropLast, r.length = 5) (h : ∀ r ∈ rows, r.length ≤ 5) :
    (rows.flatten.length % 5 = 0 → ∀ r ∈ rows, r.length = 5) ∧ rows.flatten.length / 5 ≤ rows.length ∧
      (rows.flatten.length % 5 ≠ 0 → rows.take (rows.flatten.length / 5) = rows.dropLast) ∧
      (rows.flatten.length % 5 = 0 → rows.take (rows.flatten.length / 5) = rows) := by
  rcases List.eq_nil_or_concat rows with rfl | ⟨init, last, rfl⟩
  · simp
  · rw [List.concat_eq_append] at *
    rw [List.dropLast_concat] at *
    have e := flatten_length init 5 h5
    have l0 := h0 last (by simp)
    have l5 := h last (by simp)
    rw [List.flatten_append, List.length_append, List.flatten_singleton, e, List.length_append, List.length_singleton]
    refine ⟨fun h r hr => ?_, by omega, fun h => ?_, fun h => ?_⟩
    · rw [List.mem_append, List.mem_singleton] at hr
      rcases hr with hr | rfl
      · exact h5 r hr
      · omega
    · rw [show (init.length * 5 + last.length) / 5 = init.length by omega, List.take_left]
    · rw [List.take_of_length_le]
      rw [List.length_append, List.length_singleton]
      omega

theorem readPpDensity_eq (ls : List Str) (f : Density) (h : Contains ls f) (A : M3) (hA : latgen f.ibrav ![1, 1, 1, 0, 0, 0] = some A) :
    readPpDensity ls =
      if f.rho.length % 5 = 0 then
        some (f.rho, ((f.rho.sum : ℚ) : ℝ) / ((f.n1 * f.n2 * f.n3 : Nat) : ℝ) *
          (dot3 (A 0) (cross (A 1) fun j => if j = 2 then (f.celldm 2 : ℝ) else A 2 j) * (f.celldm 0 : ℝ) ^ 3))
      else none := by
  obtain ⟨x1, x2, x3, y1, y2, y3, m1, m2, m3, nat, ntyp, ib, cd, unknown, types, atoms, data, hls, ⟨hx1, hx2, hx3⟩, ⟨hy1, hy2, hy3⟩, hnat, hntyp, hib, hcd,
    ⟨w, x, hw, hx⟩, htypes, hatoms, hat, rows, hrows, hflat, hlen, h0, h5, hle⟩ := h
  obtain ⟨c1, c2, c3, c4⟩ := rows_cases rows h0 h5 hle
  rw [hflat] at c1 c2 c3 c4
  unfold Numbers at hcd
  have ht : ∃ ys, (types.mapM fun l : List Str => (l[1]?).bind fun _ => (l[2]?).bind readFloat) = some ys := by
    clear hls hntyp
    induction types with
    | nil => exact ⟨[], rfl⟩
    | cons l types ih =>
      obtain ⟨ys, hys⟩ := ih fun l hl => htypes l (List.mem_cons_of_mem _ hl)
      obtain ⟨i, X, v, x, r, rfl, hv⟩ := htypes l List.mem_cons_self
      exact ⟨x :: ys, by simp [hv, hys]⟩
  obtain ⟨ys, ht⟩ := ht
  have ha : ∃ tau, table atoms = some tau ∧ tau.isEmpty = false := by
    have : ∃ tau, List.Forall₂ Numbers atoms tau ∧ ∀ r ∈ tau, r.length = 5 := by
      clear hls hnat hatoms
      induction atoms with
      | nil => exact ⟨[], List.Forall₂.nil, by simp⟩
      | cons l atoms ih =>
        obtain ⟨tau, h1, h2⟩ := ih fun l hl => hat l (List.mem_cons_of_mem _ hl)
        obtain ⟨xs, h3, h4⟩ := hat l List.mem_cons_self
        refine ⟨xs :: tau, List.Forall₂.cons h3 h1, ?_⟩
        intro r hr
        rcases List.mem_cons.1 hr with rfl | hr
        · exact h4
        · exact h2 r hr
    obtain ⟨tau, h1, h2⟩ := this
    refine ⟨tau, table_eq atoms tau h1 5 h2, ?_⟩
    cases h1 with
    | nil => exact absurd rfl hatoms
    | cons => rfl
  obtain ⟨tau, ha, hne⟩ := ha
  have hN : ([(f.n1 : Int), (f.n2 : Int), (f.n3 : Int)]).prod = (f.rho.length : Int) := by
    rw [hlen]
    push_cast
    simp [mul_assoc]
  have hdl : data.length = rows.length := hrows.length_eq
  have hdiv : ((f.rho.length : Int) / 5).toNat = f.rho.length / 5 := by omega
  have hhead : ([x1, x2, x3, y1, y2, y3, nat, ntyp].take 6).mapM readInt = some [(f.n1 : Int), f.n2, f.n3, m1, m2, m3] := by
    simp [hx1, hx2, hx3, hy1, hy2, hy3]
  have hhead' : [nat, ntyp].mapM readInt = some [(atoms.length : Int), (types.length : Int)] := by
    simp [hnat, hntyp]
  unfold readPpDensity
  rw [hls]
  simp only [hhead, Option.bind_some, List.head?_cons, hib, List.drop_succ_cons, List.drop_zero]
  simp only [hhead', hcd, hw, hx, hA, Int.toNat_natCast, Option.bind_some, List.getElem?_cons_succ, List.getElem?_cons_zero, true_and]
  rw [if_neg (by simp), List.take_left, ht, Option.bind_some, List.drop_left, List.take_left, ha, Option.bind_some, hne]
  simp only [Bool.false_eq_true, if_false]
  rw [show List.take 3 [(f.n1 : Int), f.n2, f.n3, m1, m2, m3] = [(f.n1 : Int), f.n2, f.n3] from rfl, hN, hdiv,
    ← List.append_assoc, show types.length + atoms.length = (types ++ atoms).length by simp, List.drop_left, if_neg (by omega)]
  by_cases h5' : f.rho.length % 5 = 0
  · rw [if_pos h5', List.take_of_length_le (by have := c4 h5'; have := congrArg List.length this; rw [List.length_take] at this; omega),
      table_eq data rows hrows 5 (c1 h5'), Option.bind_some, hflat, if_neg (by simp)]
    have e0 : (fun j => if (0 : Fin 3) = 2 ∧ j = 2 then (f.celldm 2 : ℝ) else A 0 j) = A 0 := by
      funext j
      rw [if_neg (by simp)]
    have e1 : (fun j => if (1 : Fin 3) = 2 ∧ j = 2 then (f.celldm 2 : ℝ) else A 1 j) = A 1 := by
      funext j
      rw [if_neg (by simp)]
    rw [e0, e1, ← hlen]
    norm_cast
  · rw [if_neg h5']
    have ht' : table (data.take (f.rho.length / 5)) = some rows.dropLast := by
      refine table_eq _ _ ?_ 5 h5
      rw [← c3 h5']
      exact List.forall₂_take _ hrows
    rw [ht', Option.bind_some, if_pos]
    intro he
    apply h5'
    have := flatten_length _ 5 h5
    omega

theorem latgen4 (cd : Fin 6 → ℝ) :
    latgen 4 cd = some fun i j => (![![1, 0, 0], ![-(1 / 2), 1 / 2 * Real.sqrt 3, 0], ![0, 0, cd 2]] : M3) i j * cd 0 := by simp [latgen]

theorem latgen6 (cd : Fin 6 → ℝ) : latgen 6 cd = some fun i j => (![![1, 0, 0], ![0, 1, 0], ![0, 0, cd 2]] : M3) i j * cd 0 := by simp [latgen]

theorem latgen2 (cd : Fin 6 → ℝ) : latgen 2 cd = some fun i j => (![![-1, 0, 1], ![0, 1, 1], ![-1, 1, 0]] : M3) i j * (cd 0 / 2) := by simp [latgen]

theorem latgen1 (cd : Fin 6 → ℝ) : latgen 1 cd = some fun i j => (![![1, 0, 0], ![0, 1, 0], ![0, 0, 1]] : M3) i j * cd 0 := by simp [latgen]

theorem latgen8 (cd : Fin 6 → ℝ) : latgen 8 cd = some fun i j => (![![1, 0, 0], ![0, cd 1, 0], ![0, 0, cd 2]] : M3) i j * cd 0 := by simp [latgen]

theorem contains_length {ls : List Str} {f : Density} (h : Contains ls f) : f.rho.length = f.n1 * f.n2 * f.n3 := by
  obtain ⟨x1, x2, x3, y1, y2, y3, m1, m2, m3, nat, ntyp, ib, cd, unknown, types, atoms, data, hls, ⟨hx1, hx2, hx3⟩, ⟨hy1, hy2, hy3⟩, hnat, hntyp, hib, hcd,
    ⟨w, x, hw, hx⟩, htypes, hatoms, hat, rows, hrows, hflat, hlen, h0, h5, hle⟩ := h
  exact hlen

/-- C148: total charge and density of files with a multiple of five points for hexagonal, tetragonal and face-centered cubic lattices. -/
theorem C148_density_partial (ls : List Str) (f : Density) (h : Contains ls f) (h5 : f.n1 * f.n2 * f.n3 % 5 = 0)
    (hi : f.ibrav = 4 ∨ f.ibrav = 6 ∨ (f.ibrav = 2 ∧ f.celldm 2 = 0)) (h0 : 0 < f.celldm 0) (h2 : 0 ≤ f.celldm 2) :
    ∃ V, f.volume = some V ∧ readPpDensity ls = some (f.rho, V / ((f.n1 * f.n2 * f.n3 : Nat) : ℝ) * ((f.rho.sum : ℚ) : ℝ)) := by
  have h0' : (0 : ℝ) < (f.celldm 0 : ℝ) := by exact_mod_cast h0
  have h2' : (0 : ℝ) ≤ (f.celldm 2 : ℝ) := by exact_mod_cast h2
  have h5' : f.rho.length % 5 = 0 := by rw [contains_length h, h5]
  have key : ∀ (A B : M3), latgen f.ibrav ![1, 1, 1, 0, 0, 0] = some A → latgen f.ibrav (fun i => (f.celldm i : ℝ)) = some B →
      dot3 (A 0) (cross (A 1) fun j => if j = 2 then (f.celldm 2 : ℝ) else A 2 j) * (f.celldm 0 : ℝ) ^ 3 = |dot3 (B 0) (cross (B 1) (B 2))| →
      ∃ V, f.volume = some V ∧ readPpDensity ls = some (f.rho, V / ((f.n1 * f.n2 * f.n3 : Nat) : ℝ) * ((f.rho.sum : ℚ) : ℝ)) := by
    intro A B hA hB hAB
    refine ⟨_, by rw [Density.volume, hB]; rfl, ?_⟩
    rw [readPpDensity_eq ls f h A hA, if_pos h5', hAB]
    congr 2
    ring
  rcases hi with hi | hi | ⟨hi, hc⟩
  · refine key _ _ (by rw [hi]; exact latgen4 _) (by rw [hi]; exact latgen4 _) ?_
    have hs := Real.sqrt_nonneg 3
    rw [abs_of_nonneg]
    · simp [dot3, cross]
      ring
    · simp [dot3, cross]
      positivity
  · refine key _ _ (by rw [hi]; exact latgen6 _) (by rw [hi]; exact latgen6 _) ?_
    rw [abs_of_nonneg]
    · simp [dot3, cross]
      ring
    · simp [dot3, cross]
      positivity
  · refine key _ _ (by rw [hi]; exact latgen2 _) (by rw [hi]; exact latgen2 _) ?_
    have e : (f.celldm 2 : ℝ) = 0 := by rw [hc]; simp
    rw [abs_of_nonneg]
    · simp [dot3, cross, e]
      ring
    · simp [dot3, cross]
      ring_nf
      positivity

/-- C148 fails for other numbers of points: the file is not read at all. -/
theorem C148_density_rows_violated (ls : List Str) (f : Density) (h : Contains ls f) (h5 : f.n1 * f.n2 * f.n3 % 5 ≠ 0) : readPpDensity ls = none := by
  by_cases hA : ∃ A, latgen f.ibrav ![1, 1, 1, 0, 0, 0] = some A
  · obtain ⟨A, hA⟩ := hA
    rw [readPpDensity_eq ls f h A hA, if_neg (by rw [contains_length h]; exact h5)]
  · have hn : latgen f.ibrav ![1, 1, 1, 0, 0, 0] = none := by
      cases h : latgen f.ibrav ![1, 1, 1, 0, 0, 0] with
      | none => rfl
      | some A => exact absurd ⟨A, h⟩ hA
    obtain ⟨x1, x2, x3, y1, y2, y3, m1, m2, m3, nat, ntyp, ib, cd, unknown, types, atoms, data, hls, ⟨hx1, hx2, hx3⟩, ⟨hy1, hy2, hy3⟩, hnat, hntyp, hib, hcd,
      ⟨w, x, hw, hx⟩, htypes, hatoms, hat, rows, hrows, hflat, hlen, h0, h5, hle⟩ := h
    unfold Numbers at hcd
    have hhead : ([x1, x2, x3, y1, y2, y3, nat, ntyp].take 6).mapM readInt = some [(f.n1 : Int), f.n2, f.n3, m1, m2, m3] := by
      simp [hx1, hx2, hx3, hy1, hy2, hy3]
    have hhead' : [nat, ntyp].mapM readInt = some [(atoms.length : Int), (types.length : Int)] := by simp [hnat, hntyp]
    unfold readPpDensity
    rw [hls]
    simp only [hhead, Option.bind_some, List.head?_cons, hib, List.drop_succ_cons, List.drop_zero]
    simp only [hhead', hcd, hw, hx, hn, Option.bind_some, Option.bind_none]

/-- C148 fails for simple cubic lattices, where the third parameter is zero: so is the charge, for all densities. -/
theorem C148_density_cubic_violated (ls : List Str) (f : Density) (h : Contains ls f) (h5 : f.n1 * f.n2 * f.n3 % 5 = 0) (hi : f.ibrav = 1)
    (h2 : f.celldm 2 = 0) : readPpDensity ls = some (f.rho, 0) ∧ f.volume = some |(f.celldm 0 : ℝ) ^ 3| := by
  constructor
  · rw [readPpDensity_eq ls f h _ (by rw [hi]; exact latgen1 _), if_pos (by rw [contains_length h, h5]), h2]
    simp [dot3, cross]
  · rw [Density.volume, hi, latgen1]
    simp only [Option.map_some]
    congr 2
    simp [dot3, cross]
    ring

/-- C148 fails for orthorhombic lattices: the second parameter is ignored. -/
theorem C148_density_orthorhombic_violated (ls : List Str) (f : Density) (h : Contains ls f) (h5 : f.n1 * f.n2 * f.n3 % 5 = 0) (hi : f.ibrav = 8)
    (hb : 0 < f.celldm 1) (h0 : 0 < f.celldm 0) (h2 : 0 < f.celldm 2) :
    ∃ V Q, f.volume = some V ∧ readPpDensity ls = some (f.rho, Q) ∧
      (f.celldm 1 : ℝ) * Q = V / ((f.n1 * f.n2 * f.n3 : Nat) : ℝ) * ((f.rho.sum : ℚ) : ℝ) := by
  have h0' : (0 : ℝ) < (f.celldm 0 : ℝ) := by exact_mod_cast h0
  have h1' : (0 : ℝ) < (f.celldm 1 : ℝ) := by exact_mod_cast hb
  have h2' : (0 : ℝ) < (f.celldm 2 : ℝ) := by exact_mod_cast h2
  refine ⟨_, _, by rw [Density.volume, hi, latgen8]; rfl, by
    rw [readPpDensity_eq ls f h _ (by rw [hi]; exact latgen8 _), if_pos (by rw [contains_length h, h5])], ?_⟩
  dsimp only
  rw [abs_of_nonneg]
  · simp [dot3, cross]
    ring
  · simp [dot3, cross]
    positivity

/-! ### Examples -/

/-- A structure with two elements. -/
def examplePoscar' (scale : String) (extra : List String) (more : List String) : List Str :=
  (["NbSe", scale, "3 0 0", "0 3 0", "0 0 9", "Nb Se", "1 2"] ++ (extra ++ (["0 0 0 T T T", "0.5 0 0 T T F", "0 0.5 0 T T F"] ++ more))).map String.toList

def exampleStructure (scale : ℚ) : Structure where
  scale := scale
  t1 := (3, 0, 0)
  t2 := (0, 3, 0)
  t3 := (0, 0, 9)
  blocks := [("Nb".toList, [(0, 0, 0)]), ("Se".toList, [(1 / 2, 0, 0), (0, 1 / 2, 0)])]

theorem exampleDescribes (s : String) (scale : ℚ) (h : words s.toList = [s.toList] ∧ readFloat s.toList = some scale) (extra more : List String) :
    Describes (examplePoscar' s extra more) (exampleStructure scale) (extra.map String.toList) (more.map String.toList) := by
  refine ⟨"NbSe".toList, s.toList, "3 0 0".toList, "0 3 0".toList, "0 0 9".toList, "Nb Se".toList, "1 2".toList,
    ["0 0 0 T T T".toList, "0.5 0 0 T T F".toList, "0 0.5 0 T T F".toList], by simp [examplePoscar'], ⟨s.toList, h⟩,
    ⟨"3".toList, "0".toList, "0".toList, by simp only [exampleStructure]; decide +kernel⟩, ⟨"0".toList, "3".toList, "0".toList, by simp only [exampleStructure]; decide +kernel⟩,
    ⟨"0".toList, "0".toList, "9".toList, by simp only [exampleStructure]; decide +kernel⟩, by simp only [exampleStructure]; decide +kernel, by simp only [exampleStructure]; decide +kernel, ?_⟩
  refine .cons ⟨"0".toList, "0".toList, "0".toList, ["T".toList, "T".toList, "T".toList], by simp only [exampleStructure]; decide +kernel⟩
    (.cons ⟨"0.5".toList, "0".toList, "0".toList, ["T".toList, "T".toList, "F".toList], by simp only [exampleStructure]; decide +kernel⟩
    (.cons ⟨"0".toList, "0.5".toList, "0".toList, ["T".toList, "T".toList, "F".toList], by simp only [exampleStructure]; decide +kernel⟩ .nil))

example := C148_poscar_partial _ _ _ _ (exampleDescribes "1.0" 1 (by decide +kernel) ["Selective dynamics", "Direct"] []) rfl (by decide) rfl

example := C148_poscar_scale_violated _ _ _ _ (exampleDescribes "2.0" 2 (by decide +kernel) ["Selective dynamics", "Direct"] []) rfl (by decide)
  (by show (2 : ℚ) ≠ 1; norm_num) (by decide +kernel)

example := C148_poscar_direct_violated _ _ _ (exampleDescribes "1.0" 1 (by decide +kernel) ["Direct"] []) rfl (by decide)

/-- Two blocks of the same element. -/
def exampleRepeat : List Str :=
  ["Fe".toList, "1".toList, "3 0 0".toList, "0 3 0".toList, "0 0 9".toList, "Fe Fe".toList, "1 1".toList, "s".toList, "d".toList, "0 0 0".toList,
    "0.5 0 0".toList]

example : ∃ t, readPOSCAR exampleRepeat = some (t, [("Fe".toList, [toList (1 / 2, 0, 0)])]) := by
  refine C148_poscar_repeat_violated exampleRepeat { exampleStructure 1 with blocks := [("Fe".toList, [(0, 0, 0)]), ("Fe".toList, [(1 / 2, 0, 0)])] }
    ["s".toList, "d".toList] [] ?_ rfl "Fe".toList _ _ rfl
  refine ⟨"Fe".toList, "1".toList, "3 0 0".toList, "0 3 0".toList, "0 0 9".toList, "Fe Fe".toList, "1 1".toList,
    ["0 0 0".toList, "0.5 0 0".toList], by simp [exampleRepeat], ⟨"1".toList, by decide +kernel⟩,
    ⟨"3".toList, "0".toList, "0".toList, by decide +kernel⟩, ⟨"0".toList, "3".toList, "0".toList, by decide +kernel⟩,
    ⟨"0".toList, "0".toList, "9".toList, by decide +kernel⟩, by decide +kernel, by decide +kernel, ?_⟩
  exact .cons ⟨"0".toList, "0".toList, "0".toList, [], by decide +kernel⟩ (.cons ⟨"0.5".toList, "0".toList, "0".toList, [], by decide +kernel⟩ .nil)

/-- Density with ten or six points. -/
def exampleFile (n1 ib cd last : String) : List Str :=
  ["", n1 ++ " 1 2 5 1 2 1 1", ib ++ " " ++ cd ++ " 0 0 0", "4 40 60 0", "1 H 1.0", "1 0 0 0 1", "1 2 3 4 5", last].map String.toList

def exampleDensity (n1 : Nat) (ibrav : Int) (b c : ℚ) (last : List ℚ) : Density where
  n1 := n1
  n2 := 1
  n3 := 2
  ibrav := ibrav
  celldm := ![3, b, c, 0, 0, 0]
  rho := [1, 2, 3, 4, 5] ++ last

theorem exampleContains (n1 ib b c last : String) (k : Nat) (ibrav : Int) (x y : ℚ) (r : List ℚ) (rw : List Str)
    (h : ((exampleFile n1 ib ("3 " ++ b ++ " " ++ c) last).map words).filter (fun l => !l.isEmpty) =
      [[n1, "1", "2", "5", "1", "2", "1", "1"].map String.toList, ib.toList :: ["3", b, c, "0", "0", "0"].map String.toList,
        ["4", "40", "60", "0"].map String.toList, ["1", "H", "1.0"].map String.toList, ["1", "0", "0", "0", "1"].map String.toList,
        ["1", "2", "3", "4", "5"].map String.toList, rw])
    (h1 : readInt n1.toList = some (k : Int)) (h2 : readInt ib.toList = some ibrav) (h3 : readFloat b.toList = some x) (h4 : readFloat c.toList = some y)
    (h5 : rw.mapM readFloat = some r) (h6 : 0 < r.length ∧ r.length ≤ 5 ∧ 5 + r.length = k * 2) :
    Contains (exampleFile n1 ib ("3 " ++ b ++ " " ++ c) last) (exampleDensity k ibrav x y r) := by
  refine ⟨n1.toList, "1".toList, "2".toList, "5".toList, "1".toList, "2".toList, 5, 1, 2, "1".toList, "1".toList, ib.toList,
    ["3", b, c, "0", "0", "0"].map String.toList, ["4", "40", "60", "0"].map String.toList, [["1", "H", "1.0"].map String.toList],
    [["1", "0", "0", "0", "1"].map String.toList], [["1", "2", "3", "4", "5"].map String.toList, rw], ?_, ⟨h1, ?_, ?_⟩, ?_, ?_, ?_, h2, ?_, ?_, ?_, ?_, ?_,
    [[1, 2, 3, 4, 5], r], ?_, ?_, ?_, ?_, ?_, ?_⟩
  · exact h
  · show readInt "1".toList = some 1
    decide +kernel
  · show readInt "2".toList = some 2
    decide +kernel
  · decide +kernel
  · decide +kernel
  · decide +kernel
  · show List.mapM readFloat _ = some [3, x, y, 0, 0, 0]
    have e0 : readFloat "0".toList = some 0 := by decide +kernel
    have e3 : readFloat "3".toList = some 3 := by decide +kernel
    simp only [List.map_cons, List.map_nil, List.mapM_cons, List.mapM_nil, e0, e3, h3, h4]
    rfl
  · exact ⟨"60".toList, 60, by decide +kernel⟩
  · intro l hl
    rw [List.mem_singleton] at hl
    subst hl
    exact ⟨"1".toList, "H".toList, "1.0".toList, 1, [], by decide +kernel⟩
  · simp
  · intro l hl
    rw [List.mem_singleton] at hl
    subst hl
    exact ⟨[1, 0, 0, 0, 1], by unfold Numbers; decide +kernel, rfl⟩
  · exact .cons (by unfold Numbers; decide +kernel) (.cons h5 .nil)
  · simp [exampleDensity]
  · show ([1, 2, 3, 4, 5] ++ r).length = k * 1 * 2
    rw [List.length_append]
    simp only [List.length_cons, List.length_nil]
    omega
  · intro s hs
    rcases List.mem_cons.1 hs with rfl | hs
    · simp
    · rw [List.mem_singleton] at hs
      subst hs
      exact h6.1
  · intro s hs
    simp only [List.dropLast_cons_cons, List.dropLast_singleton, List.mem_singleton] at hs
    subst hs
    rfl
  · intro s hs
    rcases List.mem_cons.1 hs with rfl | hs
    · simp
    · rw [List.mem_singleton] at hs
      subst hs
      exact h6.2.1

example := C148_density_partial _ _ (exampleContains "5" "4" "0" "2" "6 7 8 9 10" 5 4 0 2 [6, 7, 8, 9, 10] (words "6 7 8 9 10".toList) (by decide +kernel) (by decide +kernel)
  (by decide +kernel) (by decide +kernel) (by decide +kernel) (by decide +kernel) (by decide)) rfl (Or.inl rfl) (by decide +kernel) (by decide +kernel)

example := C148_density_rows_violated _ _ (exampleContains "3" "4" "0" "2" "6" 3 4 0 2 [6] ["6".toList] (by decide +kernel) (by decide +kernel)
  (by decide +kernel) (by decide +kernel) (by decide +kernel) (by decide +kernel) (by decide)) (by decide)

example := C148_density_cubic_violated _ _ (exampleContains "5" "1" "0" "0" "6 7 8 9 10" 5 1 0 0 [6, 7, 8, 9, 10] (words "6 7 8 9 10".toList) (by decide +kernel) (by decide +kernel)
  (by decide +kernel) (by decide +kernel) (by decide +kernel) (by decide +kernel) (by decide)) rfl rfl rfl

example := C148_density_orthorhombic_violated _ _ (exampleContains "5" "8" "2" "2" "6 7 8 9 10" 5 8 2 2 [6, 7, 8, 9, 10] (words "6 7 8 9 10".toList) (by decide +kernel)
  (by decide +kernel) (by decide +kernel) (by decide +kernel) (by decide +kernel) (by decide +kernel) (by decide)) rfl rfl (by decide +kernel)
  (by decide +kernel) (by decide +kernel)

end Verif.Poscar
