import Mathlib.Data.List.Basic
import Mathlib.Algebra.Group.Basic
import Mathlib.Algebra.Group.Int.Defs
import Mathlib.Tactic.Use
import Verif.Lattice.Model

/-!
# Mass-spring models and the arrays they hold

Python objects hold references to arrays. Some methods of `ph.Model` create new arrays, some return views, some write into existing arrays. Here, this
is modelled with a heap of arrays; the values which the methods compute are arbitrary functions (`Sem`). The property to be shown is that
each model behaves as if it had its own copy of everything (`vrun`).

The attributes `a`, `M`, `Z`, `Q`, `eps`, ... (`A`) are only replaced, never written to in place, hence it does not matter whether they are shared.
(`z` and `q`, which are written to in `prepare_long_range`, are copies: `elphmod/ph.py` 400-401.)
-/

namespace Verif.Phon.Alias

open Verif.Lattice (V3)

/-- What the user sees of a mass-spring model: attributes that are never written to in place, positions, force constants. -/
structure Val (A V D : Type) where
  attr : A
  r : List V
  data : D

/-- What the methods compute. -/
structure Sem (A V D : Type) where
  /-- new model of `supercell` -/
  supercell : V3 → V3 → V3 → Val A V D → Val A V D
  /-- attributes of model of `unit_cell` -/
  unitAttr : A → A
  /-- number of atoms of model of `unit_cell` -/
  unitNat : A → Nat
  /-- force constants of model of `unit_cell` -/
  unitData : Val A V D → D
  /-- `order_atoms` -/
  order : List Int → Val A V D → Val A V D
  /-- force constants after `shift_atoms` -/
  shiftData : (Nat → Bool) → V3 → Val A V D → D
  /-- `np.dot(S, self.a)` -/
  vector : V3 → A → V
  /-- small elements of an array are set to zero -/
  thresh : D → D
  /-- force constants after `standardize` -/
  standard : Bool → Val A V D → D
  /-- `sum_rule_correction` -/
  sumRule : Val A V D → D
  /-- `q2r` -/
  q2r : Val A V D → D
  /-- attributes and (absent) force constants of a new model -/
  create : A × D

/-- Statements of a program. The number refers to a model, or, for `create`, to an array of the user. -/
inductive Cmd where
  | supercell (N1 N2 N3 : V3) (i : Nat)
  | unitCell (i : Nat)
  | order (o : List Int) (i : Nat)
  | shift (s : Nat → Bool) (S : V3) (i : Nat)
  | standardize (eps : Bool) (sym : Bool) (i : Nat)
  | sumRule (i : Nat)
  | q2r (i : Nat)
  | copy (i : Nat)
  | deepcopy (i : Nat)
  | create (i : Nat)

/-- A Python object: the positions are the first elements of an array; the force constants are an array. -/
structure Obj (A : Type) where
  attr : A
  rBuf : Nat
  rLen : Nat
  dBuf : Nat

/-- Arrays and objects of a process; arrays from `next` on have not been allocated yet. -/
structure Heap (A V D : Type) where
  rs : Nat → List V
  ds : Nat → D
  next : Nat
  objs : List (Obj A)

variable {A V D : Type}

/-- Value of an object. -/
def deref (h : Heap A V D) (o : Obj A) : Val A V D := ⟨o.attr, (h.rs o.rBuf).take o.rLen, h.ds o.dBuf⟩

/-- Content of all variables. -/
def view (h : Heap A V D) : List (Val A V D) := h.objs.map (deref h)

/-- Allocate new arrays. -/
def alloc (r : List V) (d : D) (h : Heap A V D) : Heap A V D :=
  ⟨fun k => if k = h.next then r else h.rs k, fun k => if k = h.next then d else h.ds k, h.next + 1, h.objs⟩

/-- New object with new arrays. -/
def push (v : Val A V D) (h : Heap A V D) : Heap A V D :=
  { alloc v.r v.data h with objs := h.objs ++ [⟨v.attr, h.next, v.r.length, h.next⟩] }

/-- Assign new arrays (`self.r = np.array(...)`, `self.data = np.array(...)`). -/
def rebind (i : Nat) (v : Val A V D) (h : Heap A V D) : Heap A V D :=
  { alloc v.r v.data h with objs := h.objs.set i ⟨v.attr, h.next, v.r.length, h.next⟩ }

/-- Assign new force constants only. -/
def rebindData (i : Nat) (o : Obj A) (d : D) (h : Heap A V D) : Heap A V D :=
  { alloc [] d h with objs := h.objs.set i { o with dBuf := h.next } }

/-- Write to force constants in place. -/
def writeData (o : Obj A) (d : D) (h : Heap A V D) : Heap A V D :=
  { h with ds := fun k => if k = o.dBuf then d else h.ds k }

/-- `self.r[s] += ...` for the first `n` elements of an array. -/
def addAt [Add V] (s : Nat → Bool) (n : Nat) (v : V) (l : List V) : List V :=
  l.mapIdx fun i x => if i < n && s i then x + v else x

/-- Write to positions in place: `elphmod/ph.py` 839. -/
def writeR [Add V] (s : Nat → Bool) (v : V) (o : Obj A) (h : Heap A V D) : Heap A V D :=
  { h with rs := fun k => if k = o.rBuf then addAt s o.rLen v (h.rs k) else h.rs k }

/-- One statement on the process `rank`. Statements about models that do not exist (yet) do nothing.

* `supercell`: `elphmod/ph.py` 579-680: `np.tile`, `np.array`, `np.dot` create new arrays.
* `unitCell`: `elphmod/ph.py` 682-762: `self.r[:ph.nat]` is a view, `np.array(list(const.values()))` copies.
* `order`: `elphmod/ph.py` 775-795: fancy indexing and `np.array` create new arrays.
* `shift`: `elphmod/ph.py` 810-839: `np.tile` creates new force constants, `standardize` as below, positions are changed in place.
* `standardize`: `elphmod/ph.py` 854-902: if `eps` is nonzero, small elements are set to zero in place; then new force constants are created.
  (Only rank 0 writes in place; this is not distinguished here.)
* `sumRule`: `elphmod/ph.py` 1651-1781: `C` is a view of `ph.data` and is changed in place.
* `q2r`: `elphmod/ph.py` 1935-1970: new force constants.
* `copy`, `deepcopy`: module `copy`, as used in `elphmod/md.py` 103, 164, 504.
* `create`: `elphmod/ph.py` 202-300 (`Model(tau=...)`): `comm.bcast` returns the same object on rank 0 and a copy on other processes. -/
def step [Add V] (rank : Nat) (S : Sem A V D) (c : Cmd) (h : Heap A V D) : Heap A V D :=
  match c with
  | .supercell N1 N2 N3 i =>
    match h.objs[i]? with
    | none => h
    | some o => push (S.supercell N1 N2 N3 (deref h o)) h
  | .unitCell i =>
    match h.objs[i]? with
    | none => h
    | some o => { alloc [] (S.unitData (deref h o)) h with
        objs := h.objs ++ [⟨S.unitAttr o.attr, o.rBuf, min (S.unitNat o.attr) o.rLen, h.next⟩] }
  | .order l i =>
    match h.objs[i]? with
    | none => h
    | some o => rebind i (S.order l (deref h o)) h
  | .shift s T i =>
    match h.objs[i]? with
    | none => h
    | some o => rebindData i o (S.shiftData s T (deref h o)) (writeR s (S.vector T o.attr) o h)
  | .standardize eps sym i =>
    match h.objs[i]? with
    | none => h
    | some o =>
      let h' := if eps then writeData o (S.thresh (deref h o).data) h else h
      rebindData i o (S.standard sym (deref h' o)) h'
  | .sumRule i =>
    match h.objs[i]? with
    | none => h
    | some o => writeData o (S.sumRule (deref h o)) h
  | .q2r i =>
    match h.objs[i]? with
    | none => h
    | some o => rebindData i o (S.q2r (deref h o)) h
  | .copy i =>
    match h.objs[i]? with
    | none => h
    | some o => { h with objs := h.objs ++ [o] }
  | .deepcopy i =>
    match h.objs[i]? with
    | none => h
    | some o => push (deref h o) h
  | .create i =>
    match h.objs[i]? with
    | none => h
    | some o =>
      if rank = 0 then { alloc [] S.create.2 h with objs := h.objs ++ [⟨S.create.1, o.rBuf, o.rLen, h.next⟩] }
      else push ⟨S.create.1, (deref h o).r, S.create.2⟩ h

/-- A program. -/
def run [Add V] (rank : Nat) (S : Sem A V D) : List Cmd → Heap A V D → Heap A V D
  | [], h => h
  | c :: cs, h => run rank S cs (step rank S c h)

/-! ### Specification -/

/-- Positions after `shift_atoms`. -/
def shifted [Add V] (s : Nat → Bool) (v : V) (l : List V) : List V := l.mapIdx fun i x => if s i then x + v else x

/-- The meaning of a statement for a user who takes each model as a value of its own. -/
def vstep [Add V] (S : Sem A V D) (c : Cmd) (m : List (Val A V D)) : List (Val A V D) :=
  match c with
  | .supercell N1 N2 N3 i => m ++ (m[i]?.map fun v => S.supercell N1 N2 N3 v).toList
  | .unitCell i => m ++ (m[i]?.map fun v => ⟨S.unitAttr v.attr, v.r.take (S.unitNat v.attr), S.unitData v⟩).toList
  | .order l i => m.modify i fun v => S.order l v
  | .shift s T i => m.modify i fun v => ⟨v.attr, shifted s (S.vector T v.attr) v.r, S.shiftData s T v⟩
  | .standardize eps sym i => m.modify i fun v =>
      { v with data := S.standard sym (if eps then { v with data := S.thresh v.data } else v) }
  | .sumRule i => m.modify i fun v => { v with data := S.sumRule v }
  | .q2r i => m.modify i fun v => { v with data := S.q2r v }
  | .copy i => m ++ m[i]?.toList
  | .deepcopy i => m ++ m[i]?.toList
  | .create i => m ++ (m[i]?.map fun v => ⟨S.create.1, v.r, S.create.2⟩).toList

/-- The same for programs. -/
def vrun [Add V] (S : Sem A V D) : List Cmd → List (Val A V D) → List (Val A V D)
  | [], m => m
  | c :: cs, m => vrun S cs (vstep S c m)

/-- The program does not move atoms of models whose positions have been passed to or taken from another object (lists `tr`, by `unit_cell`, `copy.copy`,
or the constructor) and not been renewed since then, and it does not write to force constants of models which have been copied with `copy.copy` (`td`)
and not been renewed since then. `n` is the number of objects. -/
def Safe : Nat → (tr td : List Nat) → List Cmd → Prop
  | _, _, _, [] => True
  | n, tr, td, c :: cs => match c with
    | .supercell _ _ _ i | .deepcopy i => i < n ∧ Safe (n + 1) tr td cs
    | .unitCell i | .create i => i < n ∧ Safe (n + 1) (i :: n :: tr) td cs
    | .order _ i => i < n ∧ Safe n (tr.filter (· ≠ i)) (td.filter (· ≠ i)) cs
    | .shift _ _ i => i < n ∧ i ∉ tr ∧ Safe n tr (td.filter (· ≠ i)) cs
    | .standardize eps _ i => i < n ∧ (eps = true → i ∉ td) ∧ Safe n tr (td.filter (· ≠ i)) cs
    | .sumRule i => i < n ∧ i ∉ td ∧ Safe n tr td cs
    | .q2r i => i < n ∧ Safe n tr (td.filter (· ≠ i)) cs
    | .copy i => i < n ∧ Safe (n + 1) (i :: n :: tr) (i :: n :: td) cs

/-- Objects refer to allocated arrays, and those not in the lists do not share them. -/
structure Inv (tr td : List Nat) (h : Heap A V D) : Prop where
  rLt : ∀ (i : Nat) (o : Obj A), h.objs[i]? = some o → o.rBuf < h.next
  dLt : ∀ (i : Nat) (o : Obj A), h.objs[i]? = some o → o.dBuf < h.next
  rLen : ∀ (i : Nat) (o : Obj A), h.objs[i]? = some o → o.rLen ≤ (h.rs o.rBuf).length
  rSep : ∀ (i j : Nat) (o o' : Obj A), i ≠ j → h.objs[i]? = some o → h.objs[j]? = some o' → i ∉ tr → o.rBuf ≠ o'.rBuf
  dSep : ∀ (i j : Nat) (o o' : Obj A), i ≠ j → h.objs[i]? = some o → h.objs[j]? = some o' → i ∉ td → o.dBuf ≠ o'.dBuf

/-! ### Proofs -/

theorem inv_append {tr td tr' td' : List Nat} {h h' : Heap A V D} {o' : Obj A} (hi : Inv tr td h) (ho : h'.objs = h.objs ++ [o'])
    (hn : h.next ≤ h'.next) (hrs : ∀ k < h.next, (h'.rs k).length = (h.rs k).length) (h1 : o'.rBuf < h'.next) (h2 : o'.dBuf < h'.next)
    (h3 : o'.rLen ≤ (h'.rs o'.rBuf).length) (hr : ∀ i, i ∉ tr' → i ∉ tr) (hd : ∀ i, i ∉ td' → i ∉ td)
    (hr' : ∀ (i : Nat) (o : Obj A), h.objs[i]? = some o → o.rBuf = o'.rBuf → i ∈ tr' ∧ h.objs.length ∈ tr')
    (hd' : ∀ (i : Nat) (o : Obj A), h.objs[i]? = some o → o.dBuf = o'.dBuf → i ∈ td' ∧ h.objs.length ∈ td') : Inv tr' td' h' := by
  have key : ∀ (i : Nat) (o : Obj A), h'.objs[i]? = some o → h.objs[i]? = some o ∨ (i = h.objs.length ∧ o = o') := by
    intro i o hio
    rw [ho, List.getElem?_append] at hio
    split at hio
    · exact Or.inl hio
    · rename_i h4
      rcases Nat.eq_or_lt_of_le (Nat.le_of_not_lt h4) with h5 | h5
      · rw [← h5, Nat.sub_self] at hio
        exact Or.inr ⟨h5.symm, (Option.some.inj hio).symm⟩
      · rw [List.getElem?_eq_none (by simp; omega)] at hio
        cases hio
  refine ⟨fun i o hio => ?_, fun i o hio => ?_, fun i o hio => ?_, fun i j o o2 hij hio hjo hni => ?_, fun i j o o2 hij hio hjo hni => ?_⟩
  · rcases key i o hio with h4 | ⟨-, rfl⟩
    · exact lt_of_lt_of_le (hi.rLt i o h4) hn
    · exact h1
  · rcases key i o hio with h4 | ⟨-, rfl⟩
    · exact lt_of_lt_of_le (hi.dLt i o h4) hn
    · exact h2
  · rcases key i o hio with h4 | ⟨-, rfl⟩
    · rw [hrs _ (hi.rLt i o h4)]
      exact hi.rLen i o h4
    · exact h3
  · rcases key i o hio with h4 | ⟨rfl, rfl⟩
    · rcases key j o2 hjo with h5 | ⟨rfl, rfl⟩
      · exact hi.rSep i j o o2 hij h4 h5 (hr i hni)
      · exact fun h6 => hni (hr' i o h4 h6).1
    · rcases key j o2 hjo with h5 | ⟨rfl, rfl⟩
      · exact fun h6 => hni (hr' j o2 h5 h6.symm).2
      · exact absurd rfl hij
  · rcases key i o hio with h4 | ⟨rfl, rfl⟩
    · rcases key j o2 hjo with h5 | ⟨rfl, rfl⟩
      · exact hi.dSep i j o o2 hij h4 h5 (hd i hni)
      · exact fun h6 => hni (hd' i o h4 h6).1
    · rcases key j o2 hjo with h5 | ⟨rfl, rfl⟩
      · exact fun h6 => hni (hd' j o2 h5 h6.symm).2
      · exact absurd rfl hij

theorem inv_set {tr td tr' td' : List Nat} {h h' : Heap A V D} {i : Nat} {o' : Obj A} (hi : Inv tr td h) (ho : h'.objs = h.objs.set i o')
    (hn : h.next ≤ h'.next) (hrs : ∀ k < h.next, (h'.rs k).length = (h.rs k).length) (h1 : o'.rBuf < h'.next) (h2 : o'.dBuf < h'.next)
    (h3 : o'.rLen ≤ (h'.rs o'.rBuf).length) (hr : ∀ j, j ≠ i → j ∉ tr' → j ∉ tr) (hd : ∀ j, j ≠ i → j ∉ td' → j ∉ td)
    (hr' : ∀ (j : Nat) (o : Obj A), j ≠ i → h.objs[j]? = some o → o.rBuf = o'.rBuf → j ∈ tr' ∧ i ∈ tr')
    (hd' : ∀ (j : Nat) (o : Obj A), j ≠ i → h.objs[j]? = some o → o.dBuf = o'.dBuf → j ∈ td' ∧ i ∈ td') : Inv tr' td' h' := by
  have key : ∀ (j : Nat) (o : Obj A), h'.objs[j]? = some o → (j ≠ i ∧ h.objs[j]? = some o) ∨ (j = i ∧ o = o') := by
    intro j o hio
    rw [ho, List.getElem?_set] at hio
    split at hio
    · rename_i h4
      split at hio
      · exact Or.inr ⟨h4.symm, (Option.some.inj hio).symm⟩
      · cases hio
    · rename_i h4
      exact Or.inl ⟨fun h5 => h4 h5.symm, hio⟩
  refine ⟨fun i o hio => ?_, fun i o hio => ?_, fun i o hio => ?_, fun i j o o2 hij hio hjo hni => ?_, fun i j o o2 hij hio hjo hni => ?_⟩
  · rcases key i o hio with ⟨-, h4⟩ | ⟨-, rfl⟩
    · exact lt_of_lt_of_le (hi.rLt i o h4) hn
    · exact h1
  · rcases key i o hio with ⟨-, h4⟩ | ⟨-, rfl⟩
    · exact lt_of_lt_of_le (hi.dLt i o h4) hn
    · exact h2
  · rcases key i o hio with ⟨-, h4⟩ | ⟨-, rfl⟩
    · rw [hrs _ (hi.rLt i o h4)]
      exact hi.rLen i o h4
    · exact h3
  · rcases key i o hio with ⟨h7, h4⟩ | ⟨rfl, rfl⟩
    · rcases key j o2 hjo with ⟨h8, h5⟩ | ⟨rfl, rfl⟩
      · exact hi.rSep i j o o2 hij h4 h5 (hr i h7 hni)
      · exact fun h6 => hni (hr' i o h7 h4 h6).1
    · rcases key j o2 hjo with ⟨h8, h5⟩ | ⟨rfl, rfl⟩
      · exact fun h6 => hni (hr' j o2 h8 h5 h6.symm).2
      · exact absurd rfl hij
  · rcases key i o hio with ⟨h7, h4⟩ | ⟨rfl, rfl⟩
    · rcases key j o2 hjo with ⟨h8, h5⟩ | ⟨rfl, rfl⟩
      · exact hi.dSep i j o o2 hij h4 h5 (hd i h7 hni)
      · exact fun h6 => hni (hd' i o h7 h4 h6).1
    · rcases key j o2 hjo with ⟨h8, h5⟩ | ⟨rfl, rfl⟩
      · exact fun h6 => hni (hd' j o2 h8 h5 h6.symm).2
      · exact absurd rfl hij

theorem view_append {h h' : Heap A V D} {o' : Obj A} (ho : h'.objs = h.objs ++ [o'])
    (hd : ∀ (i : Nat) o, h.objs[i]? = some o → deref h' o = deref h o) : view h' = view h ++ [deref h' o'] := by
  unfold view
  rw [ho, List.map_append, List.map_singleton]
  congr 1
  refine List.map_congr_left fun o hm => ?_
  obtain ⟨i, hi⟩ := List.mem_iff_getElem?.1 hm
  exact hd i o hi

theorem view_set {h h' : Heap A V D} {i : Nat} {o o' : Obj A} (hio : h.objs[i]? = some o) (ho : h'.objs = h.objs.set i o')
    (f : Val A V D → Val A V D) (hf : deref h' o' = f (deref h o))
    (hd : ∀ (j : Nat) o, j ≠ i → h.objs[j]? = some o → deref h' o = deref h o) : view h' = (view h).modify i f := by
  refine List.ext_getElem? fun j => ?_
  unfold view
  rw [ho, List.getElem?_modify, List.getElem?_map, List.getElem?_map, List.getElem?_set]
  by_cases hj : i = j
  · subst hj
    rw [if_pos rfl, if_pos (List.getElem?_eq_some_iff.1 hio).1, hio]
    simp [hf]
  · rw [if_neg hj]
    cases h1 : h.objs[j]? with
    | none => rfl
    | some o2 =>
      simp only [Option.map_some, if_neg hj]
      rw [hd j o2 (fun h => hj h.symm) h1]
      rfl

theorem deref_alloc {h : Heap A V D} (r : List V) (d : D) (l : List (Obj A)) {o : Obj A} (h1 : o.rBuf < h.next) (h2 : o.dBuf < h.next) :
    deref { alloc r d h with objs := l } o = deref h o := by
  unfold deref alloc
  simp only
  rw [if_neg h1.ne, if_neg h2.ne]

theorem deref_new {h : Heap A V D} (v : Val A V D) (l : List (Obj A)) :
    deref { alloc v.r v.data h with objs := l } ⟨v.attr, h.next, v.r.length, h.next⟩ = v := by
  unfold deref alloc
  simp

theorem alloc_length {h : Heap A V D} (r : List V) (d : D) (k : Nat) (hk : k < h.next) : ((alloc r d h).rs k).length = (h.rs k).length := by
  unfold alloc
  simp only
  rw [if_neg hk.ne]

theorem push_spec {tr td : List Nat} {h : Heap A V D} (hi : Inv tr td h) (v : Val A V D) :
    Inv tr td (push v h) ∧ view (push v h) = view h ++ [v] := by
  constructor
  · refine inv_append hi (h' := push v h) (o' := ⟨v.attr, h.next, v.r.length, h.next⟩) rfl (Nat.le_succ _) (alloc_length v.r v.data) (Nat.lt_succ_self _) (Nat.lt_succ_self _) ?_
      (fun _ h => h) (fun _ h => h) ?_ ?_
    · show v.r.length ≤ ((alloc v.r v.data h).rs h.next).length
      simp [alloc]
    · intro i o h1 h2
      exact absurd h2 (hi.rLt i o h1).ne
    · intro i o h1 h2
      exact absurd h2 (hi.dLt i o h1).ne
  · rw [view_append (h' := push v h) (o' := ⟨v.attr, h.next, v.r.length, h.next⟩) (h := h) rfl fun i o h1 => deref_alloc _ _ _ (hi.rLt i o h1) (hi.dLt i o h1)]
    congr 2
    exact deref_new v _

theorem filter_mem {l : List Nat} {i j : Nat} (hji : j ≠ i) (h : j ∉ l.filter (· ≠ i)) : j ∉ l :=
  fun h1 => h (List.mem_filter.2 ⟨h1, by simpa using hji⟩)

theorem rebind_spec {tr td : List Nat} {h : Heap A V D} (hi : Inv tr td h) {i : Nat} {o : Obj A} (hio : h.objs[i]? = some o)
    (f : Val A V D → Val A V D) :
    Inv (tr.filter (· ≠ i)) (td.filter (· ≠ i)) (rebind i (f (deref h o)) h) ∧ view (rebind i (f (deref h o)) h) = (view h).modify i f := by
  constructor
  · refine inv_set hi (h' := rebind i (f (deref h o)) h) (i := i) (o' := ⟨(f (deref h o)).attr, h.next, (f (deref h o)).r.length, h.next⟩) rfl (Nat.le_succ _)
      (alloc_length (f (deref h o)).r (f (deref h o)).data)
      (Nat.lt_succ_self _) (Nat.lt_succ_self _) ?_ (fun _ => filter_mem) (fun _ => filter_mem) ?_ ?_
    · show (f (deref h o)).r.length ≤ ((alloc (f (deref h o)).r (f (deref h o)).data h).rs h.next).length
      simp [alloc]
    · intro i o _ h1 h2
      exact absurd h2 (hi.rLt i o h1).ne
    · intro i o _ h1 h2
      exact absurd h2 (hi.dLt i o h1).ne
  · exact view_set hio rfl f (deref_new _ _) fun j o2 _ h1 => deref_alloc _ _ _ (hi.rLt j o2 h1) (hi.dLt j o2 h1)

theorem share_r {tr td : List Nat} {h : Heap A V D} (hi : Inv tr td h) {i j : Nat} {o o2 : Obj A} (hij : j ≠ i) (h1 : h.objs[i]? = some o)
    (h2 : h.objs[j]? = some o2) (h3 : o2.rBuf = o.rBuf) : j ∈ tr ∧ i ∈ tr :=
  ⟨Classical.byContradiction fun h => hi.rSep j i o2 o hij h2 h1 h h3,
    Classical.byContradiction fun h => hi.rSep i j o o2 hij.symm h1 h2 h h3.symm⟩

theorem share_d {tr td : List Nat} {h : Heap A V D} (hi : Inv tr td h) {i j : Nat} {o o2 : Obj A} (hij : j ≠ i) (h1 : h.objs[i]? = some o)
    (h2 : h.objs[j]? = some o2) (h3 : o2.dBuf = o.dBuf) : j ∈ td ∧ i ∈ td :=
  ⟨Classical.byContradiction fun h => hi.dSep j i o2 o hij h2 h1 h h3,
    Classical.byContradiction fun h => hi.dSep i j o o2 hij.symm h1 h2 h h3.symm⟩

theorem rebindData_spec {tr td : List Nat} {h : Heap A V D} (hi : Inv tr td h) {i : Nat} {o : Obj A} (hio : h.objs[i]? = some o)
    (f : Val A V D → D) :
    Inv tr (td.filter (· ≠ i)) (rebindData i o (f (deref h o)) h) ∧
      view (rebindData i o (f (deref h o)) h) = (view h).modify i fun v => { v with data := f v } := by
  constructor
  · refine inv_set hi (h' := rebindData i o (f (deref h o)) h) (i := i) (o' := { o with dBuf := h.next }) rfl (Nat.le_succ _)
      (alloc_length [] (f (deref h o)))
      (Nat.lt_succ_of_lt (hi.rLt i o hio)) (Nat.lt_succ_self _) ?_ (fun _ _ h => h) (fun _ => filter_mem) ?_ ?_
    · show o.rLen ≤ ((alloc [] (f (deref h o)) h).rs o.rBuf).length
      rw [alloc_length _ (f (deref h o)) _ (hi.rLt i o hio)]
      exact hi.rLen i o hio
    · intro j o2 hj h1 h2
      exact share_r hi hj hio h1 h2
    · intro i o _ h1 h2
      exact absurd h2 (hi.dLt i o h1).ne
  · refine view_set hio rfl _ ?_ fun j o2 _ h1 => deref_alloc _ _ _ (hi.rLt j o2 h1) (hi.dLt j o2 h1)
    unfold rebindData alloc deref
    simp [(hi.rLt i o hio).ne]

theorem modify_self {α : Type} (l : List α) (i : Nat) (f : α → α) (x : α) (hx : l[i]? = some x) : l.modify i f = l.set i (f x) := by
  refine List.ext_getElem? fun j => ?_
  rw [List.getElem?_modify, List.getElem?_set]
  by_cases hj : i = j
  · subst hj
    rw [if_pos rfl, if_pos (List.getElem?_eq_some_iff.1 hx).1, hx]
    simp
  · simp [hj]

theorem writeData_spec {tr td : List Nat} {h : Heap A V D} (hi : Inv tr td h) {i : Nat} {o : Obj A} (hio : h.objs[i]? = some o) (hni : i ∉ td)
    (f : Val A V D → D) :
    Inv tr td (writeData o (f (deref h o)) h) ∧ view (writeData o (f (deref h o)) h) = (view h).modify i fun v => { v with data := f v } := by
  constructor
  · exact ⟨hi.rLt, hi.dLt, hi.rLen, hi.rSep, hi.dSep⟩
  · have hset : h.objs = h.objs.set i o := by
      refine List.ext_getElem? fun j => ?_
      rw [List.getElem?_set]
      by_cases hj : i = j
      · subst hj
        rw [if_pos rfl, if_pos (List.getElem?_eq_some_iff.1 hio).1, hio]
      · rw [if_neg hj]
    refine view_set (h' := writeData o (f (deref h o)) h) hio hset _ ?_ fun j o2 hj h1 => ?_
    · unfold writeData deref
      simp
    · unfold writeData deref
      simp only
      rw [if_neg (hi.dSep i j o o2 hj.symm hio h1 hni).symm]

theorem addAt_take [Add V] (s : Nat → Bool) (n : Nat) (v : V) (l : List V) : (addAt s n v l).take n = shifted s v (l.take n) := by
  refine List.ext_getElem? fun j => ?_
  unfold addAt shifted
  rw [List.getElem?_take, List.getElem?_mapIdx, List.getElem?_mapIdx, List.getElem?_take]
  by_cases hj : j < n
  · rw [if_pos hj, if_pos hj]
    simp [hj]
  · rw [if_neg hj, if_neg hj]
    rfl

theorem writeR_spec [Add V] {tr td : List Nat} {h : Heap A V D} (hi : Inv tr td h) {i : Nat} {o : Obj A} (hio : h.objs[i]? = some o) (hni : i ∉ tr)
    (s : Nat → Bool) (v : V) :
    Inv tr td (writeR s v o h) ∧ view (writeR s v o h) = (view h).modify i fun x => { x with r := shifted s v x.r } := by
  constructor
  · refine ⟨hi.rLt, hi.dLt, fun j o2 h1 => ?_, hi.rSep, hi.dSep⟩
    have h2 := hi.rLen j o2 h1
    unfold writeR
    simp only
    split
    · unfold addAt
      rw [List.length_mapIdx]
      exact h2
    · exact h2
  · have hset : h.objs = h.objs.set i o := by
      refine List.ext_getElem? fun j => ?_
      rw [List.getElem?_set]
      by_cases hj : i = j
      · subst hj
        rw [if_pos rfl, if_pos (List.getElem?_eq_some_iff.1 hio).1, hio]
      · rw [if_neg hj]
    refine view_set (h' := writeR s v o h) hio hset _ ?_ fun j o2 hj h1 => ?_
    · unfold writeR deref
      simp only [if_true]
      rw [addAt_take]
    · unfold writeR deref
      simp only
      rw [if_neg (hi.rSep i j o o2 hj.symm hio h1 hni).symm]

theorem modify_modify' {α : Type} (l : List α) (i : Nat) (f g : α → α) : (l.modify i f).modify i g = l.modify i fun x => g (f x) := by
  refine List.ext_getElem? fun j => ?_
  rw [List.getElem?_modify, List.getElem?_modify, List.getElem?_modify]
  cases l[j]? with
  | none => rfl
  | some x =>
    by_cases hj : i = j <;> simp [hj]

theorem some_of_lt {h : Heap A V D} {i : Nat} (hlt : i < h.objs.length) : ∃ o, h.objs[i]? = some o := ⟨_, List.getElem?_eq_getElem hlt⟩

theorem view_get {h : Heap A V D} {i : Nat} {o : Obj A} (hio : h.objs[i]? = some o) : (view h)[i]? = some (deref h o) := by
  unfold view
  rw [List.getElem?_map, hio]
  rfl

theorem shared_spec {tr td : List Nat} {h : Heap A V D} (hi : Inv tr td h) {i : Nat} {o : Obj A} (hio : h.objs[i]? = some o) (a : A) (n : Nat)
    (hn : n ≤ o.rLen) (d : D) : let h' := { alloc [] d h with objs := h.objs ++ [⟨a, o.rBuf, n, h.next⟩] }
    Inv (i :: h.objs.length :: tr) td h' ∧ view h' = view h ++ [⟨a, (deref h o).r.take n, d⟩] := by
  intro h'
  constructor
  · refine inv_append hi (h' := h') (o' := ⟨a, o.rBuf, n, h.next⟩) rfl (Nat.le_succ _) (alloc_length [] d) (Nat.lt_succ_of_lt (hi.rLt i o hio))
      (Nat.lt_succ_self _) ?_ (fun j hj => ?_) (fun _ h => h) (fun j o2 h1 h2 => ?_) fun j o2 h1 h2 => ?_
    · show n ≤ ((alloc [] d h).rs o.rBuf).length
      rw [alloc_length _ _ _ (hi.rLt i o hio)]
      exact hn.trans (hi.rLen i o hio)
    · simp only [List.mem_cons, not_or] at hj
      exact hj.2.2
    · refine ⟨?_, by simp⟩
      by_cases hj : j = i
      · simp [hj]
      · exact List.mem_cons_of_mem _ (List.mem_cons_of_mem _ (share_r hi hj hio h1 h2).1)
    · exact absurd h2 (hi.dLt j o2 h1).ne
  · rw [view_append (h' := h') (o' := ⟨a, o.rBuf, n, h.next⟩) (h := h) rfl fun j o2 h1 => deref_alloc _ _ _ (hi.rLt j o2 h1) (hi.dLt j o2 h1)]
    congr 2
    show deref { alloc [] d h with objs := _ } _ = _
    unfold deref alloc
    simp only [if_true]
    rw [if_neg (hi.rLt i o hio).ne, List.take_take, min_eq_left hn]

/-- One statement. -/
theorem step_spec [Add V] (rank : Nat) (S : Sem A V D) (c : Cmd) (cs : List Cmd) (tr td : List Nat) (h : Heap A V D) (hi : Inv tr td h)
    (hs : Safe h.objs.length tr td (c :: cs)) :
    ∃ tr' td', Inv tr' td' (step rank S c h) ∧ Safe (step rank S c h).objs.length tr' td' cs ∧ view (step rank S c h) = vstep S c (view h) := by
  have len : ∀ {v : Val A V D}, (push v h).objs.length = h.objs.length + 1 := fun {v} => by simp [push]
  cases c with
  | supercell N1 N2 N3 i =>
    obtain ⟨o, ho⟩ := some_of_lt hs.1
    have hstep : step rank S (.supercell N1 N2 N3 i) h = push (S.supercell N1 N2 N3 (deref h o)) h := by simp only [step, ho]
    obtain ⟨h1, h2⟩ := push_spec hi (S.supercell N1 N2 N3 (deref h o))
    rw [hstep]
    refine ⟨tr, td, h1, ?_, ?_⟩
    · rw [len]
      exact hs.2
    · rw [h2]
      simp only [vstep, view_get ho]
      rfl
  | unitCell i =>
    obtain ⟨o, ho⟩ := some_of_lt hs.1
    have hstep : step rank S (.unitCell i) h = { alloc [] (S.unitData (deref h o)) h with
        objs := h.objs ++ [⟨S.unitAttr o.attr, o.rBuf, min (S.unitNat o.attr) o.rLen, h.next⟩] } := by simp only [step, ho]
    obtain ⟨h1, h2⟩ := shared_spec hi ho (S.unitAttr o.attr) (min (S.unitNat o.attr) o.rLen) (min_le_right _ _) (S.unitData (deref h o))
    rw [hstep]
    refine ⟨_, td, h1, ?_, ?_⟩
    · simp only [List.length_append, List.length_singleton]
      exact hs.2
    · rw [h2]
      simp only [vstep, view_get ho, Option.map_some, Option.toList_some]
      congr 3
      show ((h.rs o.rBuf).take o.rLen).take _ = ((h.rs o.rBuf).take o.rLen).take _
      rw [List.take_take, List.take_take]
      congr 1
      show min (min (S.unitNat o.attr) o.rLen) o.rLen = min (S.unitNat o.attr) o.rLen
      rw [min_assoc, min_self]
  | order l i =>
    obtain ⟨o, ho⟩ := some_of_lt hs.1
    have hstep : step rank S (.order l i) h = rebind i (S.order l (deref h o)) h := by simp only [step, ho]
    obtain ⟨h1, h2⟩ := rebind_spec hi ho (S.order l)
    rw [hstep]
    refine ⟨_, _, h1, ?_, h2⟩
    have : (rebind i (S.order l (deref h o)) h).objs.length = h.objs.length := by simp [rebind]
    rw [this]
    exact hs.2
  | shift s T i =>
    obtain ⟨o, ho⟩ := some_of_lt hs.1
    have hstep : step rank S (.shift s T i) h = rebindData i o (S.shiftData s T (deref h o)) (writeR s (S.vector T o.attr) o h) := by simp only [step, ho]
    obtain ⟨h1, h2⟩ := writeR_spec hi ho hs.2.1 s (S.vector T o.attr)
    have ho' : (writeR s (S.vector T o.attr) o h).objs[i]? = some o := ho
    obtain ⟨h3, h4⟩ := rebindData_spec h1 ho' fun _ => S.shiftData s T (deref h o)
    rw [hstep]
    refine ⟨_, _, h3, ?_, ?_⟩
    · have : (rebindData i o (S.shiftData s T (deref h o)) (writeR s (S.vector T o.attr) o h)).objs.length = h.objs.length := by
        simp [rebindData, writeR]
      rw [this]
      exact hs.2.2
    · rw [h4, h2, modify_modify']
      simp only [vstep]
      rw [modify_self _ i _ _ (view_get ho), modify_self _ i _ _ (view_get ho)]
      rfl
  | standardize eps sym i =>
    obtain ⟨o, ho⟩ := some_of_lt hs.1
    cases eps with
    | false =>
      have hstep : step rank S (.standardize false sym i) h = rebindData i o (S.standard sym (deref h o)) h := by
        simp only [step, ho]
        rfl
      obtain ⟨h3, h4⟩ := rebindData_spec hi ho (S.standard sym)
      rw [hstep]
      refine ⟨_, _, h3, ?_, h4⟩
      have : (rebindData i o (S.standard sym (deref h o)) h).objs.length = h.objs.length := by simp [rebindData]
      rw [this]
      exact hs.2.2
    | true =>
      have hstep : step rank S (.standardize true sym i) h = rebindData i o (S.standard sym (deref (writeData o (S.thresh (deref h o).data) h) o))
          (writeData o (S.thresh (deref h o).data) h) := by
        simp only [step, ho]
        rfl
      obtain ⟨h1, h2⟩ := writeData_spec hi ho (hs.2.1 rfl) fun v => S.thresh v.data
      have ho' : (writeData o (S.thresh (deref h o).data) h).objs[i]? = some o := ho
      obtain ⟨h3, h4⟩ := rebindData_spec h1 ho' (S.standard sym)
      rw [hstep]
      refine ⟨_, _, h3, ?_, ?_⟩
      · have : (rebindData i o (S.standard sym (deref (writeData o (S.thresh (deref h o).data) h) o))
            (writeData o (S.thresh (deref h o).data) h)).objs.length = h.objs.length := by simp [rebindData, writeData]
        rw [this]
        exact hs.2.2
      · rw [h4, h2, modify_modify']
        rfl
  | sumRule i =>
    obtain ⟨o, ho⟩ := some_of_lt hs.1
    have hstep : step rank S (.sumRule i) h = writeData o (S.sumRule (deref h o)) h := by simp only [step, ho]
    obtain ⟨h1, h2⟩ := writeData_spec hi ho hs.2.1 S.sumRule
    rw [hstep]
    exact ⟨tr, td, h1, hs.2.2, h2⟩
  | q2r i =>
    obtain ⟨o, ho⟩ := some_of_lt hs.1
    have hstep : step rank S (.q2r i) h = rebindData i o (S.q2r (deref h o)) h := by simp only [step, ho]
    obtain ⟨h3, h4⟩ := rebindData_spec hi ho S.q2r
    rw [hstep]
    refine ⟨_, _, h3, ?_, h4⟩
    have : (rebindData i o (S.q2r (deref h o)) h).objs.length = h.objs.length := by simp [rebindData]
    rw [this]
    exact hs.2
  | copy i =>
    obtain ⟨o, ho⟩ := some_of_lt hs.1
    have hstep : step rank S (.copy i) h = { h with objs := h.objs ++ [o] } := by simp only [step, ho]
    rw [hstep]
    refine ⟨i :: h.objs.length :: tr, i :: h.objs.length :: td, ?_, ?_, ?_⟩
    · refine inv_append hi (h' := { h with objs := h.objs ++ [o] }) (o' := o) rfl le_rfl (fun _ _ => rfl) (hi.rLt i o ho) (hi.dLt i o ho) (hi.rLen i o ho)
        (fun j hj => ?_) (fun j hj => ?_) (fun j o2 h1 h2 => ?_) fun j o2 h1 h2 => ?_
      · simp only [List.mem_cons, not_or] at hj
        exact hj.2.2
      · simp only [List.mem_cons, not_or] at hj
        exact hj.2.2
      · refine ⟨?_, by simp⟩
        by_cases hj : j = i
        · simp [hj]
        · exact List.mem_cons_of_mem _ (List.mem_cons_of_mem _ (share_r hi hj ho h1 h2).1)
      · refine ⟨?_, by simp⟩
        by_cases hj : j = i
        · simp [hj]
        · exact List.mem_cons_of_mem _ (List.mem_cons_of_mem _ (share_d hi hj ho h1 h2).1)
    · simp only [List.length_append, List.length_singleton]
      exact hs.2
    · rw [view_append (h' := { h with objs := h.objs ++ [o] }) (o' := o) (h := h) rfl fun _ _ _ => rfl]
      simp only [vstep, view_get ho]
      rfl
  | deepcopy i =>
    obtain ⟨o, ho⟩ := some_of_lt hs.1
    have hstep : step rank S (.deepcopy i) h = push (deref h o) h := by simp only [step, ho]
    obtain ⟨h1, h2⟩ := push_spec hi (deref h o)
    rw [hstep]
    refine ⟨tr, td, h1, ?_, ?_⟩
    · rw [len]
      exact hs.2
    · rw [h2]
      simp only [vstep, view_get ho]
      rfl
  | create i =>
    obtain ⟨o, ho⟩ := some_of_lt hs.1
    by_cases hr : rank = 0
    · have hstep : step rank S (.create i) h = { alloc [] S.create.2 h with objs := h.objs ++ [⟨S.create.1, o.rBuf, o.rLen, h.next⟩] } := by
        simp only [step, ho, if_pos hr]
      obtain ⟨h1, h2⟩ := shared_spec hi ho S.create.1 o.rLen le_rfl S.create.2
      rw [hstep]
      refine ⟨_, td, h1, ?_, ?_⟩
      · simp only [List.length_append, List.length_singleton]
        exact hs.2
      · rw [h2]
        simp only [vstep, view_get ho, Option.map_some, Option.toList_some]
        congr 3
        show ((h.rs o.rBuf).take o.rLen).take _ = (h.rs o.rBuf).take o.rLen
        rw [List.take_take, min_self]
    · have hstep : step rank S (.create i) h = push ⟨S.create.1, (deref h o).r, S.create.2⟩ h := by simp only [step, ho, if_neg hr]
      obtain ⟨h1, h2⟩ := push_spec hi ⟨S.create.1, (deref h o).r, S.create.2⟩
      rw [hstep]
      refine ⟨i :: h.objs.length :: tr, td, ?_, ?_, ?_⟩
      · exact ⟨h1.rLt, h1.dLt, h1.rLen, fun i j o o' hij h3 h4 h5 => h1.rSep i j o o' hij h3 h4 fun h => h5 (by simp [h]), h1.dSep⟩
      · rw [len]
        exact hs.2
      · rw [h2]
        simp only [vstep, view_get ho]
        rfl

/-- Objects of a program that has just created `vs`, each with arrays of its own. -/
def start : List (Val A V D) → Heap A V D → Heap A V D
  | [], h => h
  | v :: vs, h => start vs (push v h)

theorem start_spec (vs : List (Val A V D)) (h : Heap A V D) (hi : Inv [] [] h) : Inv [] [] (start vs h) ∧ view (start vs h) = view h ++ vs := by
  induction vs generalizing h with
  | nil => exact ⟨hi, by simp [start]⟩
  | cons v vs ih =>
    obtain ⟨h1, h2⟩ := push_spec hi v
    obtain ⟨h3, h4⟩ := ih (push v h) h1
    refine ⟨h3, ?_⟩
    show view (start vs (push v h)) = _
    rw [h4, h2, List.append_assoc]
    rfl

/-- No objects. -/
def empty (r0 : Nat → List V) (d0 : Nat → D) : Heap A V D := ⟨r0, d0, 0, []⟩

theorem run_spec [Add V] (rank : Nat) (S : Sem A V D) (cs : List Cmd) (tr td : List Nat) (h : Heap A V D) (hi : Inv tr td h)
    (hs : Safe h.objs.length tr td cs) : view (run rank S cs h) = vrun S cs (view h) := by
  induction cs generalizing h tr td with
  | nil => rfl
  | cons c cs ih =>
    obtain ⟨tr', td', h1, h2, h3⟩ := step_spec rank S c cs tr td h hi hs
    show view (run rank S cs (step rank S c h)) = vrun S cs (vstep S c (view h))
    rw [ih tr' td' _ h1 h2, h3]

/-- **C165** On every process, after any program that does not move atoms of models with shared positions, each model has the value it would have if
nothing was shared. -/
theorem C165_independent [Add V] (S : Sem A V D) (vs : List (Val A V D)) (cs : List Cmd) (hs : Safe vs.length [] [] cs) (rank : Nat)
    (r0 : Nat → List V) (d0 : Nat → D) : view (run rank S cs (start vs (empty r0 d0))) = vrun S cs vs := by
  have h0 : Inv [] [] (empty r0 d0 : Heap A V D) :=
    ⟨fun i o h => by simp [empty] at h, fun i o h => by simp [empty] at h, fun i o h => by simp [empty] at h, fun i j o o' _ h => by simp [empty] at h,
      fun i j o o' _ h => by simp [empty] at h⟩
  obtain ⟨h1, h2⟩ := start_spec vs _ h0
  have h3 : view (start vs (empty r0 d0)) = vs := by
    rw [h2]
    simp [view, empty]
  have h4 : (start vs (empty r0 d0) : Heap A V D).objs.length = vs.length := by
    have h5 := congrArg List.length h3
    rwa [view, List.length_map] at h5
  rw [run_spec rank S cs [] [] _ h1 (by rw [h4]; exact hs), h3]

/-- **C165** In particular, a statement about one model leaves all other models alone. -/
theorem C165_others [Add V] (S : Sem A V D) (vs : List (Val A V D)) (cs : List Cmd) (c : Cmd) (hs : Safe vs.length [] [] (cs ++ [c])) (rank : Nat)
    (r0 : Nat → List V) (d0 : Nat → D) (i j : Nat) (hc : c = .sumRule i ∨ (∃ s T, c = .shift s T i) ∨ (∃ o, c = .order o i) ∨ c = .q2r i ∨
      ∃ e y, c = .standardize e y i) (hij : j ≠ i) :
    (view (run rank S (cs ++ [c]) (start vs (empty r0 d0))))[j]? = (view (run rank S cs (start vs (empty r0 d0))))[j]? := by
  have happ : ∀ (cs : List Cmd) (m : List (Val A V D)), vrun S (cs ++ [c]) m = vstep S c (vrun S cs m) := by
    intro cs
    induction cs with
    | nil => exact fun m => rfl
    | cons c' cs ih => exact fun m => ih _
  have hsafe : ∀ (cs : List Cmd) (n : Nat) (tr td : List Nat), Safe n tr td (cs ++ [c]) → Safe n tr td cs := by
    intro cs
    induction cs with
    | nil => exact fun n tr td _ => trivial
    | cons c' cs ih =>
      intro n tr td h
      cases c' with
      | supercell _ _ _ i => exact ⟨h.1, ih _ _ _ h.2⟩
      | unitCell i => exact ⟨h.1, ih _ _ _ h.2⟩
      | order _ i => exact ⟨h.1, ih _ _ _ h.2⟩
      | shift _ _ i => exact ⟨h.1, h.2.1, ih _ _ _ h.2.2⟩
      | standardize _ _ i => exact ⟨h.1, h.2.1, ih _ _ _ h.2.2⟩
      | sumRule i => exact ⟨h.1, h.2.1, ih _ _ _ h.2.2⟩
      | q2r i => exact ⟨h.1, ih _ _ _ h.2⟩
      | copy i => exact ⟨h.1, ih _ _ _ h.2⟩
      | deepcopy i => exact ⟨h.1, ih _ _ _ h.2⟩
      | create i => exact ⟨h.1, ih _ _ _ h.2⟩
  rw [C165_independent S vs _ hs, C165_independent S vs cs (hsafe cs _ _ _ hs), happ]
  have hmod : ∀ f : Val A V D → Val A V D, ((vrun S cs vs).modify i f)[j]? = (vrun S cs vs)[j]? := by
    intro f
    rw [List.getElem?_modify]
    simp [hij.symm]
  rcases hc with rfl | ⟨s, T, rfl⟩ | ⟨o, rfl⟩ | rfl | ⟨e, y, rfl⟩ <;> exact hmod _

/-- A cell with two atoms on a line at 0 and 3 (times the lattice constant 10). The model of the "supercell" contains everything twice. The force constants
are a list of numbers. -/
def exampleSem : Sem Int Int (List Int) where
  supercell := fun N1 _ _ v => ⟨v.attr * N1.1, v.r ++ v.r.map (· + v.attr), v.data ++ v.data⟩
  unitAttr := fun a => a / 2
  unitNat := fun _ => 2
  unitData := fun v => v.data.take 2
  order := fun _ v => ⟨v.attr, v.r.reverse, v.data.reverse⟩
  shiftData := fun _ _ v => v.data
  vector := fun T a => T.1 * a
  thresh := fun d => d.map fun x => if x = 1 then 0 else x
  standard := fun _ v => v.data.filter (· ≠ 0)
  sumRule := fun v => v.data.map (· + 1)
  q2r := fun _ => [7]
  create := (10, [])

/-- The user's atoms. -/
def exampleVals : List (Val Int Int (List Int)) := [⟨10, [0, 3], [5, 1]⟩]

/-- A long program. -/
def exampleProg : List Cmd := [.shift (· == 1) (1, 0, 0) 0, .supercell (2, 0, 0) (0, 1, 0) (0, 0, 1) 0, .unitCell 1, .sumRule 2, .order [1, 0] 1,
  .shift (· == 0) (1, 0, 0) 1, .copy 2, .q2r 3, .standardize true false 3, .deepcopy 2, .shift (· == 0) (-1, 0, 0) 4, .create 0, .order [1, 0] 5,
  .shift (· == 1) (1, 0, 0) 5]

theorem exampleProg_safe : Safe exampleVals.length [] [] exampleProg := by
  simp [exampleVals, exampleProg, Safe]

example := C165_independent exampleSem exampleVals exampleProg exampleProg_safe 0 (fun _ => []) fun _ => []

example : (vrun exampleSem exampleProg exampleVals).map (·.r) = [[0, 13], [43, 10, 13, 0], [0, 13], [0, 13], [-10, 13], [13, 10]] := by decide

example := C165_others exampleSem exampleVals exampleProg.dropLast (.shift (· == 1) (1, 0, 0) 5) exampleProg_safe 0 (fun _ => []) (fun _ => []) 5 0
  (Or.inr (Or.inl ⟨_, _, rfl⟩)) (by decide)

/-- **C165** The positions of a model obtained from `unit_cell` are a view of those of the supercell: If the first atom (and maybe others) is moved to another
cell, it is also moved in the model of the supercell, the force constants of which remain the same. -/
theorem C165_unit_violated [AddGroup V] (S : Sem A V D) (v : Val A V D) (x : V) (l : List V) (hr : v.r = x :: l) (hn : 0 < S.unitNat v.attr)
    (s : Nat → Bool) (hs : s 0 = true) (T : V3) (hT : S.vector T (S.unitAttr v.attr) ≠ 0) (rank : Nat) (r0 : Nat → List V) (d0 : Nat → D) :
    ∃ v', (view (run rank S [.unitCell 0, .shift s T 1] (start [v] (empty r0 d0))))[0]? = some v' ∧ v'.data = v.data ∧ v'.r ≠ v.r := by
  refine ⟨_, rfl, ?_, ?_⟩
  · simp [deref, alloc, writeR, rebindData]
    rfl
  · intro h
    have h1 := congrArg (fun l : List V => l[0]?) h
    simp [run, step, deref, alloc, writeR, rebindData, push, start, empty, addAt, hr, hs, hn, hT] at h1

/-- **C165** If positions are passed to `Model(tau=...)`, moving atoms changes the array of the user on the first process, but not on other processes. -/
theorem C165_ranks_violated [AddGroup V] (S : Sem A V D) (v : Val A V D) (x : V) (l : List V) (hr : v.r = x :: l)
    (s : Nat → Bool) (hs : s 0 = true) (T : V3) (hT : S.vector T S.create.1 ≠ 0) (rank : Nat) (r0 : Nat → List V) (d0 : Nat → D) :
    ∃ v', (view (run rank S [.create 0, .shift s T 1] (start [v] (empty r0 d0))))[0]? = some v' ∧ (rank = 0 ↔ v'.r ≠ v.r) := by
  by_cases hrank : rank = 0
  · subst hrank
    refine ⟨_, rfl, ⟨fun _ h => ?_, fun _ => rfl⟩⟩
    have h1 := congrArg (fun l : List V => l[0]?) h
    simp [run, step, deref, alloc, writeR, rebindData, push, start, empty, addAt, hr, hs, hT] at h1
  · have hstep : run rank S [.create 0, .shift s T 1] (start [v] (empty r0 d0)) =
        step rank S (.shift s T 1) (push ⟨S.create.1, (deref (start [v] (empty r0 d0)) ⟨v.attr, 0, v.r.length, 0⟩).r, S.create.2⟩ (start [v] (empty r0 d0))) := by
      simp only [run]
      congr 1
      exact if_neg hrank
    rw [hstep]
    refine ⟨_, rfl, ⟨fun h => absurd h hrank, fun h => absurd ?_ h⟩⟩
    simp [run, step, deref, alloc, writeR, rebindData, push, start, empty]

example := C165_unit_violated exampleSem ⟨20, [0, 3, 10, 13], [5, 1, 5, 1]⟩ 0 [3, 10, 13] rfl (by decide) (· == 0) rfl (1, 0, 0) (by decide)

example := C165_ranks_violated exampleSem ⟨0, [0, 3], []⟩ 0 [3] rfl (· == 0) rfl (1, 0, 0) (by decide)

end Verif.Phon.Alias
