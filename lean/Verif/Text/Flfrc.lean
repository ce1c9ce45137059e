import Verif.Text.BandFile

/-!
# Files with force constants and dynamical matrices: `read_flfrc` and `write_flfrc` in `elphmod/ph.py` 1088-1431

The real-space and the reciprocal-space formats are modelled as separate functions with common parts; the case distinction of
the code is the argument `dyn`.
-/

namespace Verif.Text

/-! ### Writing -/

/-- Table of atomic species, `elphmod/ph.py` 1308-1309: the distinct pairs of label and mass, sorted by the first occurrence of
the label; the order of isotopes is arbitrary because `set` is not ordered. -/
structure IsSpecies (atoms species : List (Str × ℚ)) : Prop where
  nodup : species.Nodup
  mem : ∀ x, x ∈ species ↔ x ∈ atoms
  sorted : species.Pairwise fun x y => (atoms.map Prod.fst).idxOf x.1 ≤ (atoms.map Prod.fst).idxOf y.1

/-- Row of three numbers in the format `'%w.df'`. -/
def row3 (sp0 sp w d : Nat) (x : Nat → ℚ) : List Field := [fFixed sp0 w d (x 0), fFixed sp w d (x 1), fFixed sp w d (x 2)]

/-- Line `"%12d  '%-3s' %19.10f\n"`, `elphmod/ph.py` 1340. -/
def speciesText (nt : Nat) (x : Str × ℚ) : Str :=
  fmt [fInt 0 12 (nt + 1)] ++ (' ' :: ' ' :: '\'' :: (padRight 3 x.1 ++ '\'' :: (fmt [fFixed 1 19 10 x.2] ++ ['\n'])))

/-- Fields of `elphmod/ph.py` 1345-1348. -/
def atomFields (alat : ℚ) (species : List (Str × ℚ)) (na : Nat) (X : Str) (tau : Nat → ℚ) : List Field :=
  fInt 0 5 (na + 1) :: fInt 1 4 (((species.map Prod.fst).idxOf X : Nat) + 1) :: row3 1 1 17 10 fun x => tau x / alat

/-- First part, `elphmod/ph.py` 1312-1350. -/
def writeStructure (dyn : Bool) (species : List (Str × ℚ)) (alat : ℚ) (at_ : Nat → Nat → ℚ) (atoms : List (Str × ℚ))
    (tau : Nat → Nat → ℚ) : Str :=
  (if dyn then "Dynamical matrix file\n\n".toList else []) ++
  (fmt ([fInt 0 3 species.length, fInt 1 4 atoms.length, fInt 1 2 0, fFixed 1 10 7 alat] ++
    List.replicate 5 (fFixed 1 10 7 0)) ++ '\n' ::
  ((if dyn then "Basis vectors\n".toList else []) ++
  (((List.range 3).flatMap fun x => fmt (row3 2 1 14 9 fun y => at_ x y / alat) ++ ['\n']) ++
  ((species.zipIdx.flatMap fun p => speciesText p.2 p.1) ++
  (atoms.zipIdx.flatMap fun p => fmt (atomFields alat species p.2 p.1.1 (tau p.2)) ++ ['\n'])))))

/-- Dielectric tensor and effective charges. -/
structure Rigid where
  epsil : Nat → Nat → ℚ
  zeu : Nat → Nat → Nat → ℚ

/-- `elphmod/ph.py` 1392-1396. -/
def writeEpsil (e : Rigid) : Str := (List.range 3).flatMap fun x => fmt (row3 1 1 23 12 (e.epsil x)) ++ ['\n']

/-- `elphmod/ph.py` 1402-1412; `head` is the text before the number of the atom. -/
def writeZeu (head : Str) (nat : Nat) (e : Rigid) : Str :=
  (List.range nat).flatMap fun na : Nat => head ++ (fmt [fInt 0 5 (na + 1)] ++ '\n' ::
    (List.range 3).flatMap fun x => fmt (row3 1 1 14 7 (e.zeu na x)) ++ ['\n'])

/-- Order of the lines with force constants: indices `j1`, `j2`, `na1`, `na2`, `m3`, `m2`, `m1`, preceded by a line for each block. -/
def phidOrder (nat nr1 nr2 nr3 : Nat) : List (List Nat × Option (List Nat)) :=
  (indices [3, 3, nat, nat]).flatMap fun i => (i, none) :: (indices [nr3, nr2, nr1]).map fun m => (i, some m)

/-- Fields of `elphmod/ph.py` 1423-1431. -/
def phidFields (phid : List Nat → ℚ) : List Nat × Option (List Nat) → List Field
  | (i, none) => [fInt 0 4 (i.getD 0 0 + 1 : Nat), fInt 1 3 (i.getD 1 0 + 1 : Nat), fInt 1 3 (i.getD 2 0 + 1 : Nat),
      fInt 1 3 (i.getD 3 0 + 1 : Nat)]
  | (i, some m) => [fInt 0 4 (m.getD 2 0 + 1 : Nat), fInt 1 3 (m.getD 1 0 + 1 : Nat), fInt 1 3 (m.getD 0 0 + 1 : Nat),
      fExp 1 19 'E' 11 (phid (i ++ m))]

/-- `elphmod/ph.py` 1277-1431 (`write_flfrc`) for force constants. `alph`: text of the Ewald parameter (`%g`). -/
def writeFlfrc (species : List (Str × ℚ)) (alat : ℚ) (at_ : Nat → Nat → ℚ) (atoms : List (Str × ℚ)) (tau : Nat → Nat → ℚ)
    (alph : Option Str) (rigid : Option Rigid) (nr1 nr2 nr3 : Nat) (phid : List Nat → ℚ) : Str :=
  writeStructure false species alat at_ atoms tau ++
  (match rigid with
    | none => fmt [⟨0, 2, ['F']⟩] ++ ['\n']
    | some e => fmt (⟨0, 2, ['T']⟩ :: alph.toList.map fun g => ⟨1, 0, g⟩) ++ '\n' ::
      (writeEpsil e ++ writeZeu [] atoms.length e)) ++
  (fmt [fInt 0 4 nr1, fInt 1 3 nr2, fInt 1 3 nr3] ++ '\n' ::
    (phidOrder atoms.length nr1 nr2 nr3).flatMap fun p => fmt (phidFields phid p) ++ ['\n'])

/-! ### Reading -/

/-- `elphmod/ph.py` 1130-1131: `n` lines with at least one word. -/
def rows {α : Type} (f : List Str → Option α) : Nat → List (List Str) → Option (List α × List (List Str))
  | 0, t => some ([], t)
  | n + 1, t =>
    match cols t with
    | none => none
    | some (l, t) =>
      match f l with
      | none => none
      | some a =>
        match rows f n t with
        | none => none
        | some (as, t) => some (a :: as, t)

/-- `elphmod/ph.py` 1130-1131 (`table`). -/
def table (n : Nat) : List (List Str) → Option (List (List ℚ) × List (List Str)) := rows (fun l => l.mapM readFloat) n

/-- `elphmod/ph.py` 1163-1166: label and mass. -/
def readSpecies (l : List Str) : Option (Str × ℚ) :=
  match l[1]?, l.getLast? with
  | some w, some m => (readFloat m).map fun m => ((w.drop 1).take 2, m)
  | _, _ => none

/-- `elphmod/ph.py` 1173-1177: type and position. -/
def readAtom (l : List Str) : Option (Int × List ℚ) :=
  match l[1]?.bind readInt, ((l.drop 2).take 3).mapM readFloat with
  | some i, some tau => if tau.length = 3 then some (i - 1, tau) else none
  | _, _ => none

/-- Crystal structure: factor, lattice vectors, labels and masses of atoms, positions. -/
structure Crystal where
  alat : ℚ
  at_ : List (List ℚ)
  atoms : List (Str × ℚ)
  tau : List (List ℚ)

/-- `elphmod/ph.py` 1135-1188; lattice vectors for nonzero `ibrav` are given by `prim` (see `Verif.Bravais`). Is this a file
with dynamical matrices? -/
def readStructure (prim : Int → List ℚ → Option (List (List ℚ))) (t : List (List Str)) :
    Option (Bool × Crystal × List (List Str)) := do
  let (tmp, t) ← cols t
  let dyn := tmp[0]? = some "Dynamical".toList
  let (tmp, t) ← if dyn then (if t = [] then none else cols t.tail) else some (tmp, t)
  let [ntyp, nat, ibrav] ← (tmp.take 3).mapM readInt | none
  let celldm ← (tmp.drop 3).mapM readFloat
  let alat ← celldm[0]?
  let (at_, t) ← if ibrav ≠ 0 then (prim ibrav celldm).map fun a => (a, t)
    else (table 3 (if dyn then t.tail else t)).map fun a => (a.1.map fun r => r.map fun x => x * alat, a.2)
  let (species, t) ← rows readSpecies ntyp.toNat t
  let (atoms, t) ← rows readAtom nat.toNat t
  let order ← atoms.mapM fun a => (pyIndex species.length a.1).bind fun i => species[i]?
  some (dyn, ⟨alat, at_, order, atoms.map fun a => a.2.map fun x => x * alat⟩, t)

/-- `elphmod/ph.py` 1241-1245 and 1226-1230: charges of `n` more atoms; the number of the atom is taken from the word selected
by `f`. -/
def readZeu (f : List Str → Option Str) (nat : Nat) : Nat → (Nat → Option (List (List ℚ))) → List (List Str) →
    Option ((Nat → Option (List (List ℚ))) × List (List Str))
  | 0, z, t => some (z, t)
  | n + 1, z, t => do
    let (l, t) ← cols t
    let na ← ((f l).bind readInt).bind fun i => pyIndex nat (i - 1)
    let (T, t) ← table 3 t
    readZeu f nat n (fun k => if k = na then some T else z k) t

/-- `elphmod/ph.py` 1253-1263. -/
def readPhid : List (List Nat × Option (List Nat)) → (List Nat → Option ℚ) → List (List Str) → Option (List Nat → Option ℚ)
  | [], p, _ => some p
  | (i, o) :: r, p, t => do
    let (l, t) ← cols t
    match o with
    | none => readPhid r p t
    | some m =>
      let x ← l[3]?.bind readFloat
      readPhid r (fun k => if k = i ++ m then some x else p k) t

/-- Result of `read_flfrc` for force constants. -/
structure Flfrc where
  crystal : Crystal
  alph : Option ℚ
  epsil : Option (List (List ℚ))
  zeu : Option (Nat → Option (List (List ℚ)))
  nr : Nat × Nat × Nat
  phid : List Nat → Option ℚ

/-- `elphmod/ph.py` 1231-1245. -/
def readRigid (nat : Nat) (t : List (List Str)) :
    Option ((Option ℚ × Option (List (List ℚ)) × Option (Nat → Option (List (List ℚ)))) × List (List Str)) := do
  let (tmp, t) ← cols t
  if tmp[0]? = some ['T'] then
    let alph ← if 1 < tmp.length then (tmp[1]?.bind readFloat).map some else some none
    let (epsil, t) ← table 3 t
    let (zeu, t) ← readZeu (fun l => l[0]?) nat nat (fun _ => none) t
    some ((alph, some epsil, some zeu), t)
  else some ((none, none, none), t)

/-- `elphmod/ph.py` 1088-1275 (`read_flfrc`) for force constants. -/
def readFlfrc (prim : Int → List ℚ → Option (List (List ℚ))) (text : Str) : Option Flfrc := do
  let (dyn, c, t) ← readStructure prim (tokens text)
  if dyn then none
  else
    let (e, t) ← readRigid c.atoms.length t
    let (l, t) ← cols t
    let [nr1, nr2, nr3] ← l.mapM readInt | none
    let phid ← readPhid (phidOrder c.atoms.length nr1.toNat nr2.toNat nr3.toNat) (fun _ => none) t
    some ⟨c, e.1, e.2.1, e.2.2, (nr1.toNat, nr2.toNat, nr3.toNat), phid⟩

/-! ### Proofs -/

theorem rows_map {α β : Type} (f : List Str → Option β) (g : α → List Str) (v : α → β) (l : List α)
    (h : ∀ a ∈ l, g a ≠ [] ∧ f (g a) = some (v a)) (r : List (List Str)) :
    rows f l.length (l.map g ++ r) = some (l.map v, r) := by
  induction l with
  | nil => rfl
  | cons a l ih =>
    rw [List.length_cons, List.map_cons, List.cons_append, rows, cols_cons _ (h a (by simp)).1]
    simp only [(h a (by simp)).2]
    rw [ih fun b hb => h b (by simp [hb])]
    rfl

/-- Words of a row of numbers. -/
def row3Words (d : Nat) (x : Nat → ℚ) : List Str := [showFixed d (x 0), showFixed d (x 1), showFixed d (x 2)]

/-- Rounded row. -/
def round3 (d : Nat) (x : Nat → ℚ) : List ℚ := [roundTo d (x 0), roundTo d (x 1), roundTo d (x 2)]

theorem row3_text (sp0 sp w d : Nat) (x : Nat → ℚ) : (row3 sp0 sp w d x).map Field.text = row3Words d x := rfl

theorem row3_solid (sp0 sp w d : Nat) (x : Nat → ℚ) : ∀ f ∈ row3 sp0 sp w d x, Solid f.text := by
  intro f hf
  simp only [row3, List.mem_cons, List.not_mem_nil, or_false] at hf
  rcases hf with rfl | rfl | rfl <;> exact fFixed_solid _ _ _ _

theorem row3_free (sp0 sp w d : Nat) (hsp : 0 < sp) (x : Nat → ℚ) : ∀ f ∈ (row3 sp0 sp w d x).tail, f.Free := by
  intro f hf
  simp only [row3, List.tail_cons, List.mem_cons, List.not_mem_nil, or_false] at hf
  rcases hf with rfl | rfl <;> exact Or.inl hsp

theorem row3_read (d : Nat) (hd : 0 < d) (x : Nat → ℚ) : (row3Words d x).mapM readFloat = some (round3 d x) := by
  simp only [row3Words, List.mapM_cons, List.mapM_nil, readFloat_showFixed d hd]
  rfl

theorem tokens_table (sp0 sp w d : Nat) (hsp : 0 < sp) (x : Nat → Nat → ℚ) (r : Str) :
    tokens (((List.range 3).flatMap fun i => fmt (row3 sp0 sp w d (x i)) ++ ['\n']) ++ r) =
      ((List.range 3).map fun i => row3Words d (x i)) ++ tokens r :=
  tokens_rows (List.range 3) (fun i => row3 sp0 sp w d (x i)) (fun _ _ => row3_solid _ _ _ _ _)
    (fun _ _ => row3_free _ _ _ _ hsp _) r

theorem table_rows (d : Nat) (hd : 0 < d) (x : Nat → Nat → ℚ) (r : List (List Str)) :
    table 3 (((List.range 3).map fun i => row3Words d (x i)) ++ r) = some ((List.range 3).map fun i => round3 d (x i), r) := by
  unfold table
  have := rows_map (fun l => l.mapM readFloat) (fun i => row3Words d (x i)) (fun i => round3 d (x i)) (List.range 3)
    (fun i _ => ⟨by simp [row3Words], row3_read d hd _⟩) r
  rwa [List.length_range] at this

/-- Words of a line with a species. -/
def speciesWords (nt : Nat) (x : Str × ℚ) : List Str :=
  if x.1.length < 3 then [showInt (nt + 1), '\'' :: x.1, ['\''], showFixed 10 x.2]
  else [showInt (nt + 1), '\'' :: (x.1 ++ ['\'']), showFixed 10 x.2]

theorem tokens_species (nt : Nat) (x : Str × ℚ) (hx : Solid x.1) (r : Str) :
    tokens (speciesText nt x ++ r) = [speciesWords nt x] ++ tokens r := by
  have hq : isSpace '\'' = false := by decide
  unfold speciesText speciesWords
  by_cases h : x.1.length < 3
  · rw [if_pos h]
    have e : fmt [fInt 0 12 (nt + 1)] ++ (' ' :: ' ' :: '\'' :: (padRight 3 x.1 ++ '\'' :: (fmt [fFixed 1 19 10 x.2] ++
        ['\n']))) ++ r = fmt [fInt 0 12 (nt + 1), ⟨2, 0, '\'' :: x.1⟩, ⟨3 - x.1.length, 0, ['\'']⟩, fFixed 1 19 10 x.2] ++
        '\n' :: r := by
      simp [fmt, padRight, padLeft, padWith, List.replicate]
    rw [e, tokens_fmt]
    · rfl
    · intro f hf
      simp only [List.mem_cons, List.not_mem_nil, or_false] at hf
      rcases hf with rfl | rfl | rfl | rfl
      · exact fInt_solid _ _ _
      · exact ⟨by simp, fun c hc => by
          rw [List.mem_cons] at hc
          rcases hc with rfl | hc
          · exact hq
          · exact hx.2 c hc⟩
      · exact ⟨by simp, fun c hc => by
          rw [List.mem_singleton] at hc
          rw [hc, hq]⟩
      · exact fFixed_solid _ _ _ _
    · intro f hf
      simp only [List.tail_cons, List.mem_cons, List.not_mem_nil, or_false] at hf
      rcases hf with rfl | rfl | rfl
      · exact Or.inl (by simp)
      · exact Or.inl (by simp; omega)
      · exact Or.inl Nat.one_pos
  · rw [if_neg h]
    have e : fmt [fInt 0 12 (nt + 1)] ++ (' ' :: ' ' :: '\'' :: (padRight 3 x.1 ++ '\'' :: (fmt [fFixed 1 19 10 x.2] ++
        ['\n']))) ++ r = fmt [fInt 0 12 (nt + 1), ⟨2, 0, '\'' :: (x.1 ++ ['\''])⟩, fFixed 1 19 10 x.2] ++ '\n' :: r := by
      have h0 : 3 - x.1.length = 0 := by omega
      simp [fmt, padRight, padLeft, padWith, List.replicate, h0]
    rw [e, tokens_fmt]
    · rfl
    · intro f hf
      simp only [List.mem_cons, List.not_mem_nil, or_false] at hf
      rcases hf with rfl | rfl | rfl
      · exact fInt_solid _ _ _
      · exact ⟨by simp, fun c hc => by
          rw [List.mem_cons, List.mem_append, List.mem_singleton] at hc
          rcases hc with rfl | hc | rfl
          · exact hq
          · exact hx.2 c hc
          · exact hq⟩
      · exact fFixed_solid _ _ _ _
    · intro f hf
      simp only [List.tail_cons, List.mem_cons, List.not_mem_nil, or_false] at hf
      rcases hf with rfl | rfl
      · exact Or.inl (by simp)
      · exact Or.inl Nat.one_pos

theorem readSpecies_words (nt : Nat) (x : Str × ℚ) (hx : Solid x.1) :
    speciesWords nt x ≠ [] ∧ readSpecies (speciesWords nt x) = some (x.1.take 2, roundTo 10 x.2) := by
  unfold speciesWords readSpecies
  by_cases h : x.1.length < 3
  · rw [if_pos h]
    refine ⟨by simp, ?_⟩
    simp [readFloat_showFixed 10 (by omega)]
  · rw [if_neg h]
    refine ⟨by simp, ?_⟩
    simp only [List.getElem?_cons_succ, List.getElem?_cons_zero, List.getLast?_cons_cons, List.getLast?_singleton,
      readFloat_showFixed 10 (show 0 < 10 by omega), Option.map_some, List.drop_succ_cons, List.drop_zero]
    rw [List.take_append_of_le_length (by omega)]

/-- Words of a line with an atom. -/
def atomWords (alat : ℚ) (species : List (Str × ℚ)) (na : Nat) (X : Str) (tau : Nat → ℚ) : List Str :=
  showInt (na + 1) :: showInt (((species.map Prod.fst).idxOf X : Nat) + 1) :: row3Words 10 fun x => tau x / alat

theorem readAtom_words (alat : ℚ) (species : List (Str × ℚ)) (na : Nat) (X : Str) (tau : Nat → ℚ) :
    readAtom (atomWords alat species na X tau) =
      some ((((species.map Prod.fst).idxOf X : Nat) : Int), round3 10 fun x => tau x / alat) := by
  unfold readAtom atomWords
  have h := row3_read 10 (by omega) fun x => tau x / alat
  have e : ((showInt (na + 1) :: showInt (((species.map Prod.fst).idxOf X : Nat) + 1) :: row3Words 10 fun x =>
      tau x / alat).drop 2).take 3 = row3Words 10 fun x => tau x / alat := rfl
  rw [e, h]
  simp [readInt_showInt, round3]

/-- Structure as read. -/
def crystalRead (species : List (Str × ℚ)) (alat : ℚ) (at_ : Nat → Nat → ℚ) (atoms : List (Str × ℚ)) (tau : Nat → Nat → ℚ) :
    Crystal where
  alat := roundTo 7 alat
  at_ := (List.range 3).map fun x => (round3 9 fun y => at_ x y / alat).map fun v => v * roundTo 7 alat
  atoms := atoms.map fun a => ((species.find? fun s => s.1 = a.1).map fun s => (s.1.take 2, roundTo 10 s.2)).getD ([], 0)
  tau := atoms.zipIdx.map fun p => (round3 10 fun x => tau p.2 x / alat).map fun v => v * roundTo 7 alat

theorem species_index (species : List (Str × ℚ)) (X : Str) (h : X ∈ species.map Prod.fst) :
    (species.map Prod.fst).idxOf X < species.length ∧
    species[(species.map Prod.fst).idxOf X]? = species.find? fun s => s.1 = X := by
  induction species with
  | nil => simp at h
  | cons s species ih =>
    by_cases hs : s.1 = X
    · subst hs
      simp [List.idxOf_cons_self]
    · have h' : X ∈ species.map Prod.fst := by
        rw [List.map_cons, List.mem_cons] at h
        rcases h with h | h
        · exact absurd h.symm hs
        · exact h
      obtain ⟨i1, i2⟩ := ih h'
      rw [List.map_cons, List.idxOf_cons_ne _ hs]
      refine ⟨by simp; exact i1, ?_⟩
      simp [hs, i2]

theorem roundTo_zero (d : Nat) : roundTo d 0 = 0 := by
  have := roundTo_exact d 0
  simpa using this

/-- Words of the first part of the file. -/
theorem tokens_structure (dyn : Bool) (species : List (Str × ℚ)) (hs : ∀ s ∈ species, Solid s.1) (alat : ℚ)
    (at_ : Nat → Nat → ℚ) (atoms : List (Str × ℚ)) (tau : Nat → Nat → ℚ) (r : Str) :
    tokens (writeStructure dyn species alat at_ atoms tau ++ r) =
      (if dyn then [["Dynamical".toList, "matrix".toList, "file".toList], []] else []) ++
      ((showInt species.length :: showInt atoms.length :: showInt 0 :: showFixed 7 alat :: List.replicate 5 (showFixed 7 0)) ::
      ((if dyn then [["Basis".toList, "vectors".toList]] else []) ++
      (((List.range 3).map fun x => row3Words 9 fun y => at_ x y / alat) ++
      ((species.zipIdx.map fun p => speciesWords p.2 p.1) ++
      ((atoms.zipIdx.map fun p => atomWords alat species p.2 p.1.1 (tau p.2)) ++ tokens r))))) := by
  have hdyn : ∀ s : Str, tokens ((if dyn then "Dynamical matrix file\n\n".toList else []) ++ s) =
      (if dyn then [["Dynamical".toList, "matrix".toList, "file".toList], []] else []) ++ tokens s := by
    intro s
    cases dyn
    · rfl
    · rfl
  have hbas : ∀ s : Str, tokens ((if dyn then "Basis vectors\n".toList else []) ++ s) =
      (if dyn then [["Basis".toList, "vectors".toList]] else []) ++ tokens s := by
    intro s
    cases dyn
    · rfl
    · rfl
  unfold writeStructure
  simp only [List.append_assoc, List.cons_append]
  rw [hdyn, tokens_fmt, hbas, tokens_table 2 1 14 9 (by omega),
    tokens_flatMap species.zipIdx _ (fun p => [speciesWords p.2 p.1]), flatMap_single,
    tokens_rows atoms.zipIdx (fun p => atomFields alat species p.2 p.1.1 (tau p.2))]
  · rfl
  · intro p hp f hf
    simp only [atomFields, List.mem_cons] at hf
    rcases hf with rfl | rfl | hf
    · exact fInt_solid _ _ _
    · exact fInt_solid _ _ _
    · exact row3_solid _ _ _ _ _ f hf
  · intro p hp f hf
    simp only [atomFields, List.tail_cons, List.mem_cons, row3, List.not_mem_nil, or_false] at hf
    rcases hf with rfl | rfl | rfl | rfl <;> exact Or.inl Nat.one_pos
  · intro p hp r
    refine tokens_species _ _ (hs _ ?_) r
    exact (List.mem_zipIdx' hp).2 ▸ List.getElem_mem _
  · intro f hf
    simp only [List.cons_append, List.nil_append, List.mem_cons, List.mem_replicate] at hf
    rcases hf with rfl | rfl | rfl | rfl | ⟨-, rfl⟩ <;> first | exact fInt_solid _ _ _ | exact fFixed_solid _ _ _ _
  · intro f hf
    simp only [List.cons_append, List.nil_append, List.tail_cons, List.mem_cons, List.mem_replicate] at hf
    rcases hf with rfl | rfl | rfl | ⟨-, rfl⟩ <;> exact Or.inl Nat.one_pos

theorem zipIdx_map_fst {α β : Type} (l : List α) (f : α → β) (n : Nat) : ((l.zipIdx n).map fun p => f p.1) = l.map f := by
  induction l generalizing n with
  | nil => rfl
  | cons a l ih => rw [List.zipIdx_cons, List.map_cons, ih, List.map_cons]

/-- The first part of the file is read as written. -/
theorem readStructure_words (prim : Int → List ℚ → Option (List (List ℚ))) (dyn : Bool) (species : List (Str × ℚ))
    (hs : ∀ s ∈ species, Solid s.1) (alat : ℚ) (at_ : Nat → Nat → ℚ) (atoms : List (Str × ℚ))
    (ha : ∀ a ∈ atoms, a.1 ∈ species.map Prod.fst) (tau : Nat → Nat → ℚ) (r : Str) :
    readStructure prim (tokens (writeStructure dyn species alat at_ atoms tau ++ r)) =
      some (dyn, crystalRead species alat at_ atoms tau, tokens r) := by
  rw [tokens_structure dyn species hs]
  set head := showInt species.length :: showInt atoms.length :: showInt 0 :: showFixed 7 alat ::
    List.replicate 5 (showFixed 7 0) with hhead
  have hne : head ≠ [] := by simp [hhead]
  have h1 : (head.take 3).mapM readInt = some [(species.length : Int), (atoms.length : Int), 0] := by
    simp only [hhead, List.take_succ_cons, List.take_zero, List.mapM_cons, List.mapM_nil, readInt_showInt]
    rfl
  have h2 : (head.drop 3).mapM readFloat = some (roundTo 7 alat :: List.replicate 5 0) := by
    simp only [hhead, List.drop_succ_cons, List.drop_zero, List.replicate, List.mapM_cons, List.mapM_nil,
      readFloat_showFixed 7 (show 0 < 7 by omega), roundTo_zero]
    rfl
  have h3 : (head[0]? = some "Dynamical".toList) = False := by
    simp only [hhead, List.getElem?_cons_zero, Option.some.injEq, eq_iff_iff, iff_false]
    intro h
    have h' : 'D' ∈ showInt (species.length : Int) := by
      rw [h]
      decide
    rw [showInt_natCast] at h'
    exact digit_ne _ _ (by decide) h'
  have e1 : ∀ t, rows readSpecies species.length ((species.zipIdx.map fun p => speciesWords p.2 p.1) ++ t) =
      some (species.map fun s => (s.1.take 2, roundTo 10 s.2), t) := by
    intro t
    have := rows_map readSpecies (fun p : (Str × ℚ) × Nat => speciesWords p.2 p.1)
      (fun p => (p.1.1.take 2, roundTo 10 p.1.2)) species.zipIdx (fun p hp => readSpecies_words _ _ (hs _
        ((List.mem_zipIdx' hp).2 ▸ List.getElem_mem _))) t
    rw [List.length_zipIdx, zipIdx_map_fst species fun s => (s.1.take 2, roundTo 10 s.2)] at this
    exact this
  have e2 : ∀ t, rows readAtom atoms.length ((atoms.zipIdx.map fun p => atomWords alat species p.2 p.1.1 (tau p.2)) ++ t) =
      some (atoms.zipIdx.map fun p => ((((species.map Prod.fst).idxOf p.1.1 : Nat) : Int), round3 10 fun x => tau p.2 x / alat),
        t) := by
    intro t
    have := rows_map readAtom (fun p : (Str × ℚ) × Nat => atomWords alat species p.2 p.1.1 (tau p.2))
      (fun p => ((((species.map Prod.fst).idxOf p.1.1 : Nat) : Int), round3 10 fun x => tau p.2 x / alat)) atoms.zipIdx
      (fun p hp => ⟨by simp [atomWords], readAtom_words _ _ _ _ _⟩) t
    rw [List.length_zipIdx] at this
    exact this
  have e3 : ((atoms.zipIdx.map fun p => ((((species.map Prod.fst).idxOf p.1.1 : Nat) : Int), round3 10 fun x =>
      tau p.2 x / alat)).mapM fun a => (pyIndex (species.map fun s => (s.1.take 2, roundTo 10 s.2)).length a.1).bind fun i =>
        (species.map fun s => (s.1.take 2, roundTo 10 s.2))[i]?) =
      some (atoms.map fun a => ((species.find? fun s => s.1 = a.1).map fun s => (s.1.take 2, roundTo 10 s.2)).getD ([], 0)) := by
    rw [← zipIdx_map_fst atoms _ 0]
    refine mapM_map _ _ _ _ fun p hp => ?_
    have hp' : p.1 ∈ atoms := (List.mem_zipIdx' hp).2 ▸ List.getElem_mem _
    obtain ⟨i1, i2⟩ := species_index species p.1.1 (ha _ hp')
    have hpy : pyIndex (species.map fun s => (s.1.take 2, roundTo 10 s.2)).length (((species.map Prod.fst).idxOf p.1.1 : Nat) : Int) =
        some ((species.map Prod.fst).idxOf p.1.1) := by
      unfold pyIndex
      rw [List.length_map, if_pos (by omega)]
      simp
    simp only
    rw [hpy, Option.bind_some, List.getElem?_map, i2]
    cases hf : species.find? fun s => s.1 = p.1.1 with
    | none =>
      rw [hf] at i2
      rw [List.getElem?_eq_none_iff] at i2
      omega
    | some s => rfl
  have ht := table_rows 9 (by omega) (fun x y => at_ x y / alat)
  unfold readStructure
  cases dyn
  · simp only [Bool.false_eq_true, if_false, List.nil_append]
    rw [cols_cons _ hne]
    simp only [Option.bind_eq_bind, Option.bind_some, h3, decide_false, Bool.false_eq_true, if_false, h1, h2,
      List.getElem?_cons_zero, ne_eq, not_true_eq_false, ht, Option.map_some, Int.toNat_natCast, e1, e2, e3]
    simp only [crystalRead, List.map_map]
    rfl
  · simp only [if_true, List.cons_append, List.nil_append]
    rw [cols_cons _ (by simp)]
    simp only [Option.bind_eq_bind, Option.bind_some, List.getElem?_cons_zero, decide_true, if_true, List.tail_cons,
      reduceCtorEq, if_false, cols_cons _ hne, h1, h2, ne_eq, not_true_eq_false, ht, Option.map_some, Int.toNat_natCast, e1, e2, e3]
    simp only [crystalRead, List.map_map]
    rfl

/-! ### Dielectric tensor, effective charges, force constants -/

theorem tokens_zeu (head : Str) (pre : List Str) (nat : Nat) (e : Rigid)
    (hh : ∀ (na : Nat) (r : Str), tokens (head ++ (fmt [fInt 0 5 ((na : Int) + 1)] ++ '\n' :: r)) =
      (pre ++ [showInt ((na : Int) + 1)]) :: tokens r) (r : Str) :
    tokens (writeZeu head nat e ++ r) = ((List.range nat).flatMap fun na : Nat => (pre ++ [showInt ((na : Int) + 1)]) ::
      (List.range 3).map fun x => row3Words 7 (e.zeu na x)) ++ tokens r := by
  unfold writeZeu
  refine tokens_flatMap _ _ _ (fun na _ r => ?_) r
  rw [List.append_assoc, List.append_assoc, List.cons_append, hh, tokens_table 1 1 14 7 (by omega)]
  rfl

theorem readZeu_words (f : List Str → Option Str) (pre : List Str) (hf : ∀ w, f (pre ++ [w]) = some w) (nat : Nat) (e : Rigid)
    (l : List Nat) (hl : ∀ na ∈ l, na < nat) (z : Nat → Option (List (List ℚ))) (t : List (List Str)) :
    readZeu f nat l.length z ((l.flatMap fun na : Nat => (pre ++ [showInt ((na : Int) + 1)]) ::
      (List.range 3).map fun x => row3Words 7 (e.zeu na x)) ++ t) =
      some (fun na => if na ∈ l then some ((List.range 3).map fun x => round3 7 (e.zeu na x)) else z na, t) := by
  induction l generalizing z with
  | nil => simp [readZeu]
  | cons a l ih =>
    rw [List.flatMap_cons, List.append_assoc, List.cons_append, List.length_cons, readZeu, cols_cons _ (by simp)]
    simp only [Option.bind_eq_bind, Option.bind_some, hf, readInt_showInt]
    rw [pyIndex_succ _ a (hl a (by simp)), Option.bind_some, table_rows 7 (by omega)]
    simp only [Option.bind_some]
    rw [ih fun b hb => hl b (by simp [hb])]
    congr 2
    funext na
    by_cases h1 : na ∈ l
    · simp [h1]
    · by_cases h2 : na = a
      · subst h2
        simp [h1]
      · simp [h1, h2]

theorem phidFields_solid (phid : List Nat → ℚ) (p : List Nat × Option (List Nat)) : ∀ f ∈ phidFields phid p, Solid f.text := by
  obtain ⟨i, o⟩ := p
  intro f hf
  cases o with
  | none =>
    simp only [phidFields, List.mem_cons, List.not_mem_nil, or_false] at hf
    rcases hf with rfl | rfl | rfl | rfl <;> exact fInt_solid _ _ _
  | some m =>
    simp only [phidFields, List.mem_cons, List.not_mem_nil, or_false] at hf
    rcases hf with rfl | rfl | rfl | rfl
    · exact fInt_solid _ _ _
    · exact fInt_solid _ _ _
    · exact fInt_solid _ _ _
    · exact fExp_solid _ _ _ (by decide) _ _

theorem phidFields_free (phid : List Nat → ℚ) (p : List Nat × Option (List Nat)) : ∀ f ∈ (phidFields phid p).tail, f.Free := by
  obtain ⟨i, o⟩ := p
  intro f hf
  cases o with
  | none =>
    simp only [phidFields, List.tail_cons, List.mem_cons, List.not_mem_nil, or_false] at hf
    rcases hf with rfl | rfl | rfl <;> exact Or.inl Nat.one_pos
  | some m =>
    simp only [phidFields, List.tail_cons, List.mem_cons, List.not_mem_nil, or_false] at hf
    rcases hf with rfl | rfl | rfl <;> exact Or.inl Nat.one_pos

open Classical in
theorem readPhid_words (phid : List Nat → ℚ) (L : List (List Nat × Option (List Nat))) (p : List Nat → Option ℚ) :
    ∃ q, readPhid L p (L.map fun i => (phidFields phid i).map Field.text) = some q ∧
      ∀ k, q k = if (∃ i m, (i, some m) ∈ L ∧ k = i ++ m) then some (roundExp 11 (phid k)) else p k := by
  induction L generalizing p with
  | nil => exact ⟨p, rfl, by simp⟩
  | cons a L ih =>
    obtain ⟨i, o⟩ := a
    cases o with
    | none =>
      obtain ⟨q, e1, e2⟩ := ih p
      refine ⟨q, ?_, fun k => ?_⟩
      · rw [List.map_cons, readPhid, cols_cons _ (by simp [phidFields])]
        exact e1
      · rw [e2]
        simp
    | some m =>
      obtain ⟨q, e1, e2⟩ := ih fun k => if k = i ++ m then some (roundExp 11 (phid (i ++ m))) else p k
      refine ⟨q, ?_, fun k => ?_⟩
      · rw [List.map_cons, readPhid, cols_cons _ (by simp [phidFields])]
        have h := readFloat_showExp 'E' (by decide) 11 (by omega) (phid (i ++ m))
        simp only [phidFields, fInt, fExp, List.map_cons, List.map_nil, List.getElem?_cons_succ, List.getElem?_cons_zero,
          Option.bind_eq_bind, Option.bind_some, h]
        exact e1
      · rw [e2]
        by_cases h1 : ∃ i m, (i, some m) ∈ L ∧ k = i ++ m
        · have h2 : ∃ i' m', (i', some m') ∈ (i, some m) :: L ∧ k = i' ++ m' := by
            obtain ⟨i', m', h, h'⟩ := h1
            exact ⟨i', m', by simp [h], h'⟩
          rw [if_pos h1, if_pos h2]
        · rw [if_neg h1]
          by_cases h2 : k = i ++ m
          · rw [if_pos h2, if_pos ⟨i, m, by simp, h2⟩, h2]
          · rw [if_neg h2, if_neg]
            rintro ⟨i', m', h, h'⟩
            rw [List.mem_cons] at h
            rcases h with h | h
            · simp only [Prod.mk.injEq, Option.some.injEq] at h
              exact h2 (by rw [h', h.1, h.2])
            · exact h1 ⟨i', m', h, h'⟩

/-! ### Specification and theorems -/

/-- Error of a length `x` that is stored in units of `a` with `d` decimals, the unit itself with seven decimals. -/
def lengthError (d : Nat) (a x : ℚ) : ℚ := |a| / 2 / 10 ^ d + |x / a| / 2 / 10 ^ 7 + 1 / 4 / 10 ^ (d + 7)

/-- Element of a table. -/
def entry (T : List (List ℚ)) (x y : Nat) : Option ℚ := T[x]?.bind fun r => r[y]?

/-- Specification: same crystal structure up to errors from rounding. -/
structure SameCrystal (alat : ℚ) (at_ : Nat → Nat → ℚ) (atoms : List (Str × ℚ)) (tau : Nat → Nat → ℚ) (c : Crystal) : Prop where
  labels : c.atoms.map Prod.fst = atoms.map Prod.fst
  masses : List.Forall₂ (fun a b : Str × ℚ => |b.2 - a.2| ≤ 1 / 2 / 10 ^ 10) atoms c.atoms
  at_ : ∀ x < 3, ∀ y < 3, ∃ v, entry c.at_ x y = some v ∧ |v - at_ x y| ≤ lengthError 9 alat (at_ x y)
  tau : ∀ na < atoms.length, ∀ y < 3, ∃ v, entry c.tau na y = some v ∧ |v - tau na y| ≤ lengthError 10 alat (tau na y)

theorem length_near (d : Nat) (a x : ℚ) (ha : a ≠ 0) : |roundTo d (x / a) * roundTo 7 a - x| ≤ lengthError d a x := by
  have h1 := roundTo_near d (x / a)
  have h2 := roundTo_near 7 a
  have e : roundTo d (x / a) * roundTo 7 a - x = (roundTo d (x / a) - x / a) * a + x / a * (roundTo 7 a - a) +
      (roundTo d (x / a) - x / a) * (roundTo 7 a - a) := by
    field_simp
    ring
  rw [e]
  refine (abs_add_le _ _).trans ((add_le_add_left (abs_add_le _ _) _).trans ?_)
  rw [abs_mul, abs_mul, abs_mul]
  have p1 : (0 : ℚ) < 10 ^ d := by positivity
  unfold lengthError
  refine add_le_add (add_le_add ?_ ?_) ?_
  · calc |roundTo d (x / a) - x / a| * |a| ≤ 1 / 2 / 10 ^ d * |a| := by gcongr
      _ = |a| / 2 / 10 ^ d := by ring
  · calc |x / a| * |roundTo 7 a - a| ≤ |x / a| * (1 / 2 / 10 ^ 7) := by gcongr
      _ = |x / a| / 2 / 10 ^ 7 := by ring
  · calc |roundTo d (x / a) - x / a| * |roundTo 7 a - a| ≤ 1 / 2 / 10 ^ d * (1 / 2 / 10 ^ 7) := by gcongr
      _ = 1 / 4 / 10 ^ (d + 7) := by
        rw [pow_add]
        field_simp
        norm_num

theorem entry_rows (T : Nat → Nat → ℚ) (d n x y : Nat) (c : ℚ) (hx : x < n) (hy : y < 3) :
    entry ((List.range n).map fun x => (round3 d (T x)).map fun v => v * c) x y = some (roundTo d (T x y) * c) := by
  unfold entry
  rw [List.getElem?_map, List.getElem?_range hx]
  simp only [Option.map_some, Option.bind_some, round3]
  interval_cases y <;> rfl

theorem zipIdx_map_snd {α β : Type} (l : List α) (f : Nat → β) (n : Nat) :
    ((l.zipIdx n).map fun p => f p.2) = (List.range' n l.length).map f := by
  induction l generalizing n with
  | nil => rfl
  | cons a l ih => rw [List.zipIdx_cons, List.map_cons, ih, List.length_cons, List.range'_succ, List.map_cons]

/-- Labels of at most two characters that determine the mass. -/
structure Plain (atoms : List (Str × ℚ)) : Prop where
  solid : ∀ a ∈ atoms, Solid a.1
  short : ∀ a ∈ atoms, a.1.length ≤ 2
  mass : ∀ a ∈ atoms, ∀ b ∈ atoms, a.1 = b.1 → a.2 = b.2

theorem crystal_same (atoms species : List (Str × ℚ)) (hp : Plain atoms) (hs : IsSpecies atoms species) (alat : ℚ) (ha : alat ≠ 0)
    (at_ tau : Nat → Nat → ℚ) : SameCrystal alat at_ atoms tau (crystalRead species alat at_ atoms tau) := by
  have hfind : ∀ a ∈ atoms, (species.find? fun s => s.1 = a.1) = some a := by
    intro a haa
    cases hf : species.find? fun s => s.1 = a.1 with
    | none =>
      have := List.find?_eq_none.1 hf a ((hs.mem a).2 haa)
      simp at this
    | some s =>
      have h1 := List.find?_some hf
      have h2 := (hs.mem s).1 (List.mem_of_find?_eq_some hf)
      simp only [decide_eq_true_eq] at h1
      rw [Option.some.injEq]
      exact Prod.ext h1 (hp.mass s h2 a haa h1)
  have hat : (crystalRead species alat at_ atoms tau).atoms = atoms.map fun a => (a.1, roundTo 10 a.2) := by
    simp only [crystalRead]
    refine List.map_congr_left fun a haa => ?_
    rw [hfind a haa]
    simp only [Option.map_some, Option.getD_some]
    rw [List.take_of_length_le (hp.short a haa)]
  refine ⟨?_, ?_, ?_, ?_⟩
  · rw [hat, List.map_map]
    rfl
  · rw [hat, List.forall₂_map_right_iff, List.forall₂_same]
    exact fun a _ => roundTo_near 10 _
  · intro x hx y hy
    exact ⟨_, entry_rows (fun x y => at_ x y / alat) 9 3 x y (roundTo 7 alat) hx hy, length_near 9 alat _ ha⟩
  · intro na hna y hy
    refine ⟨_, ?_, length_near 10 alat _ ha⟩
    simp only [crystalRead]
    rw [zipIdx_map_snd atoms fun n => (round3 10 fun x => tau n x / alat).map fun v => v * roundTo 7 alat, ← List.range_eq_range']
    exact entry_rows (fun x y => tau x y / alat) 10 atoms.length na y (roundTo 7 alat) hna hy

theorem species_labels (atoms species : List (Str × ℚ)) (hs : IsSpecies atoms species) :
    ∀ a ∈ atoms, a.1 ∈ species.map Prod.fst := fun a ha => List.mem_map.2 ⟨a, (hs.mem a).2 ha, rfl⟩

/-- Specification: tables as read. -/
def SameTable (d n : Nat) (T : Nat → Nat → ℚ) (U : List (List ℚ)) : Prop :=
  ∀ x < n, ∀ y < 3, ∃ v, entry U x y = some v ∧ |v - T x y| ≤ 1 / 2 / 10 ^ d

theorem table_same (d n : Nat) (T : Nat → Nat → ℚ) : SameTable d n T ((List.range n).map fun x => round3 d (T x)) := by
  intro x hx y hy
  refine ⟨_, ?_, roundTo_near d (T x y)⟩
  unfold entry
  rw [List.getElem?_map, List.getElem?_range hx]
  simp only [Option.map_some, Option.bind_some, round3]
  interval_cases y <;> rfl

/-- Specification: long-range part as read. -/
def SameRigid (nat : Nat) (alph : Option ℚ) (o : Flfrc) : Option Rigid → Prop
  | none => o.epsil = none ∧ o.zeu = none
  | some e => o.alph = alph ∧ (∃ E, o.epsil = some E ∧ SameTable 12 3 e.epsil E) ∧
      ∃ Z, o.zeu = some Z ∧ ∀ na < nat, ∃ T, Z na = some T ∧ SameTable 7 3 (e.zeu na) T

/-- Text of the Ewald parameter. -/
def AlphText (alph : Option ℚ) : Option Str → Prop
  | none => alph = none
  | some g => Solid g ∧ ∃ a, alph = some a ∧ readFloat g = some a

theorem cols_tokens {l : List Str} {t : List (List Str)} (h : l ≠ []) : cols (l :: t) = some (l, t) := cols_cons l h t

/-- Part of the file with long-range data. -/
theorem readRigid_words (nat : Nat) (alph : Option ℚ) (g : Option Str) (hg : AlphText alph g) (rigid : Option Rigid) (r : Str) :
    ∃ e, readRigid nat (tokens ((match rigid with
      | none => fmt [⟨0, 2, ['F']⟩] ++ ['\n']
      | some e => fmt (⟨0, 2, ['T']⟩ :: g.toList.map fun g => ⟨1, 0, g⟩) ++ '\n' ::
        (writeEpsil e ++ writeZeu [] nat e)) ++ r)) = some (e, tokens r) ∧
      ∀ c nr phid, SameRigid nat alph ⟨c, e.1, e.2.1, e.2.2, nr, phid⟩ rigid := by
  have sT : Solid ['T'] := ⟨by simp, by decide⟩
  have sF : Solid ['F'] := ⟨by simp, by decide⟩
  cases rigid with
  | none =>
    refine ⟨(none, none, none), ?_, fun c nr phid => ⟨rfl, rfl⟩⟩
    simp only
    rw [List.append_assoc, List.singleton_append, tokens_fmt _ (by simpa using sF) (by simp)]
    unfold readRigid
    simp only [List.map_cons, List.map_nil]
    rw [cols_tokens (by simp)]
    simp
  | some e =>
    refine ⟨(alph, some ((List.range 3).map fun x => round3 12 (e.epsil x)), some fun na => if na ∈ List.range nat then
      some ((List.range 3).map fun x => round3 7 (e.zeu na x)) else none), ?_, ?_⟩
    · simp only
      have h1 : tokens (fmt (⟨0, 2, ['T']⟩ :: g.toList.map fun g => ⟨1, 0, g⟩) ++ '\n' ::
          (writeEpsil e ++ writeZeu [] nat e) ++ r) = (['T'] :: g.toList) ::
          (((List.range 3).map fun i => row3Words 12 (e.epsil i)) ++ (((List.range nat).flatMap fun na : Nat =>
            ([] ++ [showInt ((na : Int) + 1)]) :: (List.range 3).map fun x => row3Words 7 (e.zeu na x)) ++ tokens r)) := by
        rw [List.append_assoc, List.cons_append, tokens_fmt, writeEpsil, List.append_assoc, tokens_table 1 1 23 12 (by omega),
          tokens_zeu [] [] nat e]
        · cases g <;> rfl
        · intro na r
          rw [List.nil_append, tokens_fmt _ (by simpa using fInt_solid _ _ _) (by simp)]
          rfl
        · intro f hf
          rw [List.mem_cons, List.mem_map] at hf
          rcases hf with rfl | ⟨w, hw, rfl⟩
          · exact sT
          · cases g with
            | none => simp at hw
            | some v =>
              simp at hw
              subst hw
              exact hg.1
        · intro f hf
          rw [List.tail_cons, List.mem_map] at hf
          obtain ⟨w, hw, rfl⟩ := hf
          exact Or.inl Nat.one_pos
      rw [h1]
      unfold readRigid
      rw [cols_tokens (by simp)]
      simp only [Option.bind_eq_bind, Option.bind_some, List.getElem?_cons_zero, if_true]
      have h3 := readZeu_words (fun l => l[0]?) [] (by simp) nat e (List.range nat) (by simp) (fun _ => none) (tokens r)
      rw [List.length_range] at h3
      rw [table_rows 12 (by omega)]
      simp only [Option.bind_some]
      rw [h3]
      cases g with
      | none =>
        simp only [AlphText] at hg
        simp [hg]
      | some v =>
        obtain ⟨-, a, h4, h5⟩ := hg
        simp [h4, h5]
    · intro c nr phid
      refine ⟨rfl, ⟨_, rfl, table_same 12 3 e.epsil⟩, _, rfl, fun na hna => ⟨_, if_pos (List.mem_range.2 hna), table_same 7 3 _⟩⟩

/-- What is read in general. -/
theorem readFlfrc_write (prim : Int → List ℚ → Option (List (List ℚ))) (atoms species : List (Str × ℚ))
    (hs1 : ∀ s ∈ species, Solid s.1) (hs : IsSpecies atoms species) (alat : ℚ) (at_ tau : Nat → Nat → ℚ) (alph : Option ℚ)
    (g : Option Str) (hg : AlphText alph g) (rigid : Option Rigid) (nr1 nr2 nr3 : Nat) (phid : List Nat → ℚ) :
    ∃ o, readFlfrc prim (writeFlfrc species alat at_ atoms tau g rigid nr1 nr2 nr3 phid) = some o ∧
      o.crystal = crystalRead species alat at_ atoms tau ∧ SameRigid atoms.length alph o rigid ∧ o.nr = (nr1, nr2, nr3) ∧
      ∀ j1 < 3, ∀ j2 < 3, ∀ na1 < atoms.length, ∀ na2 < atoms.length, ∀ m1 < nr1, ∀ m2 < nr2, ∀ m3 < nr3,
        ∃ x, o.phid [j1, j2, na1, na2, m3, m2, m1] = some x ∧
          |x - phid [j1, j2, na1, na2, m3, m2, m1]| ≤ |phid [j1, j2, na1, na2, m3, m2, m1]| / 2 / 10 ^ 11 := by
  obtain ⟨q, f1, f2⟩ := readPhid_words phid (phidOrder atoms.length nr1 nr2 nr3) (fun _ => none)
  obtain ⟨e, e1, e2⟩ := readRigid_words atoms.length alph g hg rigid (fmt [fInt 0 4 nr1, fInt 1 3 nr2, fInt 1 3 nr3] ++ '\n' ::
    (phidOrder atoms.length nr1 nr2 nr3).flatMap fun p => fmt (phidFields phid p) ++ ['\n'])
  have hlen : (crystalRead species alat at_ atoms tau).atoms.length = atoms.length := by simp [crystalRead]
  refine ⟨⟨crystalRead species alat at_ atoms tau, e.1, e.2.1, e.2.2, (nr1, nr2, nr3), q⟩, ?_, rfl, e2 _ _ _, rfl, ?_⟩
  · unfold readFlfrc writeFlfrc
    rw [List.append_assoc, readStructure_words prim false species hs1 alat at_ atoms (species_labels _ _ hs)]
    simp only [Option.bind_eq_bind, Option.bind_some, Bool.false_eq_true, if_false, hlen]
    rw [e1]
    have hr := tokens_rows (phidOrder atoms.length nr1 nr2 nr3) (phidFields phid) (fun _ _ => phidFields_solid phid _)
      (fun _ _ => phidFields_free phid _) []
    rw [List.append_nil, tokens_nil, List.append_nil] at hr
    rw [tokens_fmt, hr]
    · simp only [Option.bind_some, List.map_cons, List.map_nil, fInt]
      rw [cols_tokens (by simp)]
      simp only [Option.bind_some, List.mapM_cons, List.mapM_nil, readInt_showInt, Option.pure_def, Option.bind_eq_bind,
        Int.toNat_natCast, f1]
    · intro f hf
      simp only [List.mem_cons, List.not_mem_nil, or_false] at hf
      rcases hf with rfl | rfl | rfl <;> exact fInt_solid _ _ _
    · intro f hf
      simp only [List.tail_cons, List.mem_cons, List.not_mem_nil, or_false] at hf
      rcases hf with rfl | rfl <;> exact Or.inl Nat.one_pos
  · intro j1 h1 j2 h2 na1 h3 na2 h4 m1 h5 m2 h6 m3 h7
    refine ⟨_, (f2 _).trans (if_pos ⟨[j1, j2, na1, na2], [m3, m2, m1], ?_, rfl⟩), roundExp_near 11 _⟩
    unfold phidOrder
    rw [List.mem_flatMap]
    refine ⟨[j1, j2, na1, na2], (mem_indices _ _).2 (.cons h1 (.cons h2 (.cons h3 (.cons h4 .nil)))), ?_⟩
    rw [List.mem_cons, List.mem_map]
    exact Or.inr ⟨[m3, m2, m1], (mem_indices _ _).2 (.cons h7 (.cons h6 (.cons h5 .nil))), rfl⟩

/-- C113: force constants, crystal structure, dielectric tensor and effective charges are read as they were written, up to
rounding, for every number of atoms and any mesh, if labels have at most two characters and determine the mass. -/
theorem C113_ifc_partial (prim : Int → List ℚ → Option (List (List ℚ))) (atoms species : List (Str × ℚ)) (hp : Plain atoms)
    (hs : IsSpecies atoms species) (alat : ℚ) (ha : alat ≠ 0) (at_ tau : Nat → Nat → ℚ) (alph : Option ℚ) (g : Option Str)
    (hg : AlphText alph g) (rigid : Option Rigid) (nr1 nr2 nr3 : Nat) (phid : List Nat → ℚ) :
    ∃ o, readFlfrc prim (writeFlfrc species alat at_ atoms tau g rigid nr1 nr2 nr3 phid) = some o ∧
      SameCrystal alat at_ atoms tau o.crystal ∧ SameRigid atoms.length alph o rigid ∧ o.nr = (nr1, nr2, nr3) ∧
      ∀ j1 < 3, ∀ j2 < 3, ∀ na1 < atoms.length, ∀ na2 < atoms.length, ∀ m1 < nr1, ∀ m2 < nr2, ∀ m3 < nr3,
        ∃ x, o.phid [j1, j2, na1, na2, m3, m2, m1] = some x ∧
          |x - phid [j1, j2, na1, na2, m3, m2, m1]| ≤ |phid [j1, j2, na1, na2, m3, m2, m1]| / 2 / 10 ^ 11 := by
  obtain ⟨o, h1, h2, h3⟩ := readFlfrc_write prim atoms species (fun s h => hp.solid s ((hs.mem s).1 h)) hs alat at_ tau alph g hg
    rigid nr1 nr2 nr3 phid
  refine ⟨o, h1, ?_, h3⟩
  rw [h2]
  exact crystal_same atoms species hp hs alat ha at_ tau

/-- Two atoms of two species. -/
theorem plain_BN : Plain [(['B'], 21 / 2), (['N'], 14)] ∧ IsSpecies [(['B'], 21 / 2), (['N'], 14)] [(['B'], 21 / 2), (['N'], 14)] := by
  refine ⟨⟨?_, ?_, ?_⟩, ⟨by simp, fun x => Iff.rfl, by simp⟩⟩
  · intro a ha
    simp only [List.mem_cons, List.not_mem_nil, or_false] at ha
    rcases ha with rfl | rfl <;> exact ⟨by simp, by simp [isSpace]⟩
  · intro a ha
    simp only [List.mem_cons, List.not_mem_nil, or_false] at ha
    rcases ha with rfl | rfl <;> simp
  · intro a ha b hb h
    simp only [List.mem_cons, List.not_mem_nil, or_false] at ha hb
    rcases ha with rfl | rfl <;> rcases hb with rfl | rfl <;> simp_all

example : ∃ o, readFlfrc (fun _ _ => none) (writeFlfrc [(['B'], 21 / 2), (['N'], 14)] 5 (fun x y => if x = y then 5 else 0)
      [(['B'], 21 / 2), (['N'], 14)] (fun na x => if na = 1 then (x : ℚ) else 0) (some ['1', '.', '0'])
      (some ⟨fun x y => if x = y then 3 else 0, fun _ _ _ => 1⟩) 2 3 1 fun i => (i.sum : ℚ) / 7) = some o ∧ o.nr = (2, 3, 1) := by
  obtain ⟨o, h1, -, -, h2, -⟩ := C113_ifc_partial (fun _ _ => none) [(['B'], 21 / 2), (['N'], 14)] _ plain_BN.1 plain_BN.2 5
    (by norm_num) (fun x y => if x = y then 5 else 0) (fun na x => if na = 1 then (x : ℚ) else 0) (some 1) (some ['1', '.', '0'])
    ⟨⟨by simp, by simp [isSpace]⟩, 1, rfl, by decide +kernel⟩ (some ⟨fun x y => if x = y then 3 else 0, fun _ _ _ => 1⟩) 2 3 1
    fun i => (i.sum : ℚ) / 7
  exact ⟨o, h1, h2⟩

/-- C113: longer labels are cut: two kinds of iron atoms cannot be told apart afterwards. -/
theorem C113_labels_violated (prim : Int → List ℚ → Option (List (List ℚ))) (m1 m2 : ℚ) (species : List (Str × ℚ))
    (hs : IsSpecies [(['F', 'e', '1'], m1), (['F', 'e', '2'], m2)] species) (alat : ℚ) (at_ tau : Nat → Nat → ℚ)
    (rigid : Option Rigid) (nr1 nr2 nr3 : Nat) (phid : List Nat → ℚ) :
    ∃ o, readFlfrc prim (writeFlfrc species alat at_ [(['F', 'e', '1'], m1), (['F', 'e', '2'], m2)] tau none rigid nr1 nr2 nr3
      phid) = some o ∧ o.crystal.atoms.map Prod.fst = [['F', 'e'], ['F', 'e']] := by
  have hsol : ∀ s ∈ species, Solid s.1 := by
    intro s h
    have := (hs.mem s).1 h
    simp only [List.mem_cons, List.not_mem_nil, or_false] at this
    rcases this with rfl | rfl <;> exact ⟨by simp, by simp [isSpace]⟩
  obtain ⟨o, h1, h2, -⟩ := readFlfrc_write prim _ species hsol hs alat at_ tau none none rfl rigid nr1 nr2 nr3 phid
  refine ⟨o, h1, ?_⟩
  have hf : ∀ (X : Str) (m : ℚ), (X, m) ∈ species → ∃ n, (species.find? fun s => s.1 = X) = some (X, n) := by
    intro X m h
    cases hf : species.find? fun s => s.1 = X with
    | none =>
      have := List.find?_eq_none.1 hf _ h
      simp at this
    | some s =>
      have h1 := List.find?_some hf
      simp only [decide_eq_true_eq] at h1
      exact ⟨s.2, by rw [← h1]⟩
  obtain ⟨a, ha⟩ := hf _ m1 ((hs.mem _).2 (by simp : (['F', 'e', '1'], m1) ∈ _))
  obtain ⟨b, hb⟩ := hf _ m2 ((hs.mem _).2 (by simp : (['F', 'e', '2'], m2) ∈ _))
  rw [h2]
  simp only [crystalRead, List.map_cons, List.map_nil]
  simp [ha, hb]

/-- C113: isotopes with the same label are read with the same mass, whatever the order of the table of species. -/
theorem C113_isotopes_violated (prim : Int → List ℚ → Option (List (List ℚ))) (species : List (Str × ℚ))
    (hs : IsSpecies [(['H'], 1), (['H'], 2)] species) (alat : ℚ) (at_ tau : Nat → Nat → ℚ)
    (rigid : Option Rigid) (nr1 nr2 nr3 : Nat) (phid : List Nat → ℚ) :
    ∃ o m, readFlfrc prim (writeFlfrc species alat at_ [(['H'], 1), (['H'], 2)] tau none rigid nr1 nr2 nr3 phid) = some o ∧
      o.crystal.atoms = [(['H'], m), (['H'], m)] := by
  have hsol : ∀ s ∈ species, Solid s.1 := by
    intro s h
    have := (hs.mem s).1 h
    simp only [List.mem_cons, List.not_mem_nil, or_false] at this
    rcases this with rfl | rfl <;> exact ⟨by simp, by simp [isSpace]⟩
  obtain ⟨o, h1, h2, -⟩ := readFlfrc_write prim _ species hsol hs alat at_ tau none none rfl rigid nr1 nr2 nr3 phid
  cases hf : species.find? fun s => s.1 = ['H'] with
  | none =>
    have := List.find?_eq_none.1 hf _ ((hs.mem _).2 (by simp : (['H'], (1 : ℚ)) ∈ _))
    simp at this
  | some s =>
    have h3 := List.find?_some hf
    simp only [decide_eq_true_eq] at h3
    refine ⟨o, roundTo 10 s.2, h1, ?_⟩
    rw [h2]
    simp only [crystalRead, List.map_cons, List.map_nil]
    simp [hf, h3]

example : IsSpecies [(['F', 'e', '1'], 56), (['F', 'e', '2'], 57)] [(['F', 'e', '1'], 56), (['F', 'e', '2'], 57)] :=
  ⟨by simp, fun x => Iff.rfl, by simp⟩

example : IsSpecies [(['H'], 1), (['H'], 2)] [(['H'], 2), (['H'], 1)] :=
  ⟨by simp, fun x => by simp [or_comm], by simp⟩

end Verif.Text
