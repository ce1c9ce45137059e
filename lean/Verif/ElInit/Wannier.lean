import Verif.MPI.Props
import Verif.Misc.Model
import Verif.Bravais.Model
import Mathlib.Tactic.Linarith
import Mathlib.Tactic.FieldSimp
import Mathlib.Tactic.NormNum
import Mathlib.Tactic.LinearCombination
import Mathlib.Analysis.SpecialFunctions.Pow.Real

/-!
# Wannier functions: `misc.real_space_grid` and the part of `el.Model.__init__` that reads them

The text of the files is the subject of C150 in `Misc/Xsf.lean`; here, files have a header and data. Shared memory is not modelled.
-/

namespace Verif.Wannier

open Verif.Bravais

/-! ### Models -/

/-- `np.linspace(0.0, 1.0, num)[i]`; a single point is zero. -/
noncomputable def linspace (num i : Nat) : ℝ := if num = 1 then 0 else (i : ℝ) / ((num : ℝ) - 1)

/-- `elphmod/misc.py` 476-508 (`real_space_grid`), element `(i, j, k)`. -/
noncomputable def gridPoint (n : Nat × Nat × Nat) (r0 : R3) (a : Fin 3 → R3) (i j k : Nat) : R3 := fun x =>
  r0 x + (linspace n.1 i * a 0 x + linspace n.2.1 j * a 1 x + linspace n.2.2 k * a 2 x)

/-- Header of a file: shape, origin, spanning vectors. -/
structure Head where
  n : Nat × Nat × Nat
  r0 : R3
  a : Fin 3 → R3

/-- Number of grid points, `np.prod(shape)`. -/
def Head.points (h : Head) : Nat := h.n.1 * h.n.2.1 * h.n.2.2

/-- `elphmod/el.py` 266 -/
noncomputable def volumeElement (h : Head) : ℝ := |dot3 (cross (h.a 0) (h.a 1)) (h.a 2)| / (h.points : ℝ)

/-- `elphmod/misc.py` 476-508: all points in the order of memory. -/
noncomputable def grid (h : Head) : List R3 := Misc.flatC h.n.1 h.n.2.1 h.n.2.2 (gridPoint h.n h.r0 h.a)

/-- `elphmod/el.py` 285 -/
noncomputable def normalize (dV : ℝ) (w : List ℝ) : List ℝ := w.map (· / Real.sqrt ((w.map (· ^ 2)).sum * dV))

/-- `elphmod/el.py` 281-285: one step of the loop. The data must have as many elements as expected from the first file (the broadcast of data with
another shape is not modelled). -/
noncomputable def readOne (norm : Bool) (P : Nat) (dV : ℝ) (files : Nat → Option (Head × List ℝ)) (n : Nat) : Option (List ℝ) :=
  match files (n + 1) with
  | none => none
  | some f => if f.2.length = P then some (if norm then normalize dV f.2 else f.2) else none

/-- `elphmod/el.py` 272-287: functions read by all processes, gathered in one array (given in the order of memory). -/
noncomputable def readAll (norm : Bool) (procs size P : Nat) (dV : ℝ) (files : Nat → Option (Head × List ℝ)) : Option (List ℝ) :=
  (MPI.distribute size procs).bind fun d =>
    ((List.range procs).mapM fun rank : Nat => ((MPI.boundsRange d.2 rank).mapM (readOne norm P dV files)).map List.flatten).map MPI.gatherv

/-- Files written for later use. -/
structure Disk where
  wf : Option (List ℝ)
  xyz : Option (List R3)
  head : Option Head

/-- Attributes of the model: arrays in the order of memory. -/
structure Result where
  shape : Nat × Nat × Nat
  W : List ℝ
  r : List R3
  dV : ℝ

/-- Element `n` of an array with `P` numbers per element. -/
def slice (P n : Nat) (W : List ℝ) : List ℝ := (W.drop (n * P)).take P

/-- `elphmod/el.py` 252-297 (`Model.__init__` with `read_xsf`). Missing files with arrays yield empty arrays (`MPI.load`). `rounded` is the header
read from the file the given one has been written to (C150_header). -/
noncomputable def initWf (buffer norm : Bool) (procs size : Nat) (rounded : Head → Head) (files : Nat → Option (Head × List ℝ)) (disk : Disk) :
    Option (Result × Disk) :=
  if buffer ∧ disk.wf.getD [] ≠ [] ∧ disk.xyz.getD [] ≠ [] then
    match disk.head with
    | none => none
    | some h => some (⟨h.n, disk.wf.getD [], disk.xyz.getD [], volumeElement h⟩, disk)
  else
    match files 1 with
    | none => none
    | some f => match readAll norm procs size f.1.points (volumeElement f.1) files with
      | none => none
      | some W => some (⟨f.1.n, W, grid f.1, volumeElement f.1⟩,
          if buffer then ⟨some W, some (grid f.1), some (rounded f.1)⟩ else disk)

/-! ### Grid -/

/-- C150 (grid). The grid starts at the origin and ends at the opposite corner of the parallelepiped, and neighboring points are separated by the
spanning vector divided by the number of intervals. -/
theorem C150_grid (n : Nat × Nat × Nat) (r0 : R3) (a : Fin 3 → R3) (h0 : 2 ≤ n.1) (h1 : 2 ≤ n.2.1) (h2 : 2 ≤ n.2.2) :
    gridPoint n r0 a 0 0 0 = r0 ∧
    (∀ x, gridPoint n r0 a (n.1 - 1) (n.2.1 - 1) (n.2.2 - 1) x = r0 x + a 0 x + a 1 x + a 2 x) ∧
    ∀ i j k x, ((n.1 : ℝ) - 1) * (gridPoint n r0 a (i + 1) j k x - gridPoint n r0 a i j k x) = a 0 x ∧
      ((n.2.1 : ℝ) - 1) * (gridPoint n r0 a i (j + 1) k x - gridPoint n r0 a i j k x) = a 1 x ∧
      ((n.2.2 : ℝ) - 1) * (gridPoint n r0 a i j (k + 1) x - gridPoint n r0 a i j k x) = a 2 x := by
  have c0 : ((n.1 : ℝ) - 1) ≠ 0 := by
    have : (2 : ℝ) ≤ n.1 := by exact_mod_cast h0
    linarith
  have c1 : ((n.2.1 : ℝ) - 1) ≠ 0 := by
    have : (2 : ℝ) ≤ n.2.1 := by exact_mod_cast h1
    linarith
  have c2 : ((n.2.2 : ℝ) - 1) ≠ 0 := by
    have : (2 : ℝ) ≤ n.2.2 := by exact_mod_cast h2
    linarith
  have e0 : n.1 ≠ 1 := by omega
  have e1 : n.2.1 ≠ 1 := by omega
  have e2 : n.2.2 ≠ 1 := by omega
  refine ⟨?_, fun x => ?_, fun i j k x => ⟨?_, ?_, ?_⟩⟩
  · funext x
    simp [gridPoint, linspace]
  · simp only [gridPoint, linspace, if_neg e0, if_neg e1, if_neg e2]
    rw [Nat.cast_sub (by omega), Nat.cast_sub (by omega), Nat.cast_sub (by omega)]
    push_cast
    rw [div_self c0, div_self c1, div_self c2]
    ring
  all_goals
    simp only [gridPoint, linspace, if_neg e0, if_neg e1, if_neg e2]
    push_cast
    field_simp
    ring

/-- Difference of two points. -/
def diff (u v : R3) : R3 := fun x => u x - v x

/-- C150 (volume element). Violated in general: the attribute `dV` is never the volume of the parallelepiped spanned by neighboring grid points,
`dV` times the number of points equals the volume between neighboring points times the number of intervals. -/
theorem C150_voxel_violated (h : Head) (h0 : 2 ≤ h.n.1) (h1 : 2 ≤ h.n.2.1) (h2 : 2 ≤ h.n.2.2) (hv : dot3 (cross (h.a 0) (h.a 1)) (h.a 2) ≠ 0)
    (i j k : Nat) :
    let p := gridPoint h.n h.r0 h.a
    let V := |dot3 (cross (diff (p (i + 1) j k) (p i j k)) (diff (p i (j + 1) k) (p i j k))) (diff (p i j (k + 1)) (p i j k))|
    volumeElement h < V ∧
    volumeElement h * ((h.n.1 : ℝ) * h.n.2.1 * h.n.2.2) = V * (((h.n.1 : ℝ) - 1) * ((h.n.2.1 : ℝ) - 1) * ((h.n.2.2 : ℝ) - 1)) := by
  intro p V
  have l0 : (2 : ℝ) ≤ h.n.1 := by exact_mod_cast h0
  have l1 : (2 : ℝ) ≤ h.n.2.1 := by exact_mod_cast h1
  have l2 : (2 : ℝ) ≤ h.n.2.2 := by exact_mod_cast h2
  obtain ⟨_, _, hd⟩ := C150_grid h.n h.r0 h.a h0 h1 h2
  set c0 := (h.n.1 : ℝ) - 1 with hc0
  set c1 := (h.n.2.1 : ℝ) - 1 with hc1
  set c2 := (h.n.2.2 : ℝ) - 1 with hc2
  have q0 : 0 < c0 := by linarith
  have q1 : 0 < c1 := by linarith
  have q2 : 0 < c2 := by linarith
  have hV : V * (c0 * c1 * c2) = |dot3 (cross (h.a 0) (h.a 1)) (h.a 2)| := by
    have hpos : 0 < c0 * c1 * c2 := by positivity
    show |_| * _ = _
    rw [← abs_of_pos hpos, ← abs_mul]
    congr 1
    have a0 : ∀ x, h.a 0 x = c0 * diff (p (i + 1) j k) (p i j k) x := fun x => ((hd i j k x).1).symm
    have a1 : ∀ x, h.a 1 x = c1 * diff (p i (j + 1) k) (p i j k) x := fun x => ((hd i j k x).2.1).symm
    have a2 : ∀ x, h.a 2 x = c2 * diff (p i j (k + 1)) (p i j k) x := fun x => ((hd i j k x).2.2).symm
    simp only [dot3, cross, a0, a1, a2, Matrix.cons_val_zero, Matrix.cons_val_one, Matrix.cons_val]
    ring
  have hn : (0 : ℝ) < (h.n.1 : ℝ) * h.n.2.1 * h.n.2.2 := by positivity
  have e : volumeElement h * ((h.n.1 : ℝ) * h.n.2.1 * h.n.2.2) = V * (c0 * c1 * c2) := by
    rw [hV, volumeElement, Head.points]
    push_cast
    field_simp
  have hVpos : 0 < V := by
    have : 0 < V * (c0 * c1 * c2) := by rw [hV]; exact abs_pos.2 hv
    exact pos_of_mul_pos_left this (by positivity)
  refine ⟨?_, e⟩
  have hlt : c0 * c1 * c2 < (h.n.1 : ℝ) * h.n.2.1 * h.n.2.2 := by
    have r0 : c0 < h.n.1 := by linarith
    have r1 : c1 < h.n.2.1 := by linarith
    have r2 : c2 < h.n.2.2 := by linarith
    gcongr
  by_contra hc
  push Not at hc
  have := mul_lt_mul_of_pos_left hlt hVpos
  have h3 := mul_le_mul_of_nonneg_right hc hn.le
  linarith

example : ∃ h : Head, 2 ≤ h.n.1 ∧ 2 ≤ h.n.2.1 ∧ 2 ≤ h.n.2.2 ∧ dot3 (cross (h.a 0) (h.a 1)) (h.a 2) ≠ 0 :=
  ⟨⟨(2, 3, 4), fun _ => 0, ![![1, 0, 0], ![0, 2, 0], ![1, 0, 1]]⟩, by norm_num, by norm_num, by norm_num, by
    simp [dot3, cross]⟩

/-! ### Wannier functions -/

theorem mapM_some {α β : Type} (l : List α) (f : α → Option β) (g : α → β) (h : ∀ x ∈ l, f x = some (g x)) : l.mapM f = some (l.map g) := by
  induction l with
  | nil => rfl
  | cons a l ih =>
    rw [List.mapM_cons, h a (by simp), ih fun x hx => h x (by simp [hx])]
    rfl

theorem slice_flatMap (P size : Nat) (g : Nat → List ℝ) (hg : ∀ m, m < size → (g m).length = P) (n : Nat) (hn : n < size) :
    slice P n ((List.range size).flatMap g) = g n := by
  induction size generalizing g n with
  | zero => omega
  | succ size ih =>
    rw [List.range_succ_eq_map, List.flatMap_cons, List.flatMap_map]
    cases n with
    | zero => simp [slice, ← hg 0 (by omega)]
    | succ n =>
      rw [← ih (fun m => g (m + 1)) (fun m hm => hg (m + 1) (by omega)) n (by omega)]
      unfold slice
      rw [List.drop_append, List.drop_eq_nil_of_le (by rw [hg 0 (by omega)]; exact Nat.le_mul_of_pos_left _ (by omega)), hg 0 (by omega)]
      rw [List.nil_append, show (n + 1) * P - P = n * P by rw [Nat.add_mul]; omega]

/-- The function stored for data read from a file. -/
noncomputable def stored (norm : Bool) (dV : ℝ) (w : List ℝ) : List ℝ := if norm then normalize dV w else w

theorem readAll_eq (norm : Bool) (procs size P : Nat) (dV : ℝ) (files : Nat → Option (Head × List ℝ)) (hp : 0 < procs) (data : Nat → List ℝ)
    (hf : ∀ n, n < size → ∃ h, files (n + 1) = some (h, data n) ∧ (data n).length = P) :
    readAll norm procs size P dV files = some ((List.range size).flatMap fun n : Nat => stored norm dV (data n)) := by
  obtain ⟨sizes, bounds, hd, hb, _⟩ := MPI.C02_bounds_ranges size procs hp
  unfold readAll
  rw [hd, Option.bind_some]
  have hone : ∀ n, n < size → readOne norm P dV files n = some (stored norm dV (data n)) := by
    intro n hn
    obtain ⟨h, e, hl⟩ := hf n hn
    unfold readOne stored
    simp only [e, hl, if_true]
  rw [mapM_some (List.range procs) _ (fun rank : Nat => ((MPI.boundsRange bounds rank).map fun n : Nat => stored norm dV (data n)).flatten) (by
    intro rank hr
    dsimp only
    rw [mapM_some (MPI.boundsRange bounds rank) _ (fun n : Nat => stored norm dV (data n))]
    · rfl
    · intro n hn
      refine hone n ?_
      have : n ∈ (List.range procs).flatMap (MPI.boundsRange bounds) := List.mem_flatMap.2 ⟨rank, hr, hn⟩
      rw [hb] at this
      exact List.mem_range.1 this), Option.map_some, MPI.gatherv]
  congr 1
  rw [← hb]
  simp only [← List.flatMap_def, List.flatMap_assoc]

theorem normalize_length (dV : ℝ) (w : List ℝ) : (normalize dV w).length = w.length := by simp [normalize]

theorem sum_normalize (w : List ℝ) (c : ℝ) : ((w.map (· / c)).map (· ^ 2)).sum = (w.map (· ^ 2)).sum / c ^ 2 := by
  induction w with
  | nil => simp
  | cons a w ih =>
    simp only [List.map_cons, List.sum_cons] at ih ⊢
    rw [ih, div_pow, add_div]

/-- C150 (order). Without buffer, for any number of processes, Wannier function `n` of the model is the one from file `n + 1`, unchanged if no
normalization is requested; the grid and the volume element are those of the first file. -/
theorem C150_order (norm : Bool) (procs size : Nat) (hp : 0 < procs) (hs : 0 < size) (rounded : Head → Head) (files : Nat → Option (Head × List ℝ))
    (h : Head) (data : Nat → List ℝ) (h1 : files 1 = some (h, data 0))
    (hf : ∀ n, n < size → ∃ h', files (n + 1) = some (h', data n) ∧ (data n).length = h.points) (disk : Disk) :
    ∃ res, initWf false norm procs size rounded files disk = some (res, disk) ∧ res.shape = h.n ∧ res.dV = volumeElement h ∧ res.r = grid h ∧
      res.W.length = size * h.points ∧ (norm = false → ∀ n, n < size → slice h.points n res.W = data n) ∧
      (norm = true → ∀ n, n < size → ∃ c : ℝ, 0 ≤ c ∧ slice h.points n res.W = (data n).map (· * c) ∧
        (0 < res.dV → (∃ x ∈ data n, x ≠ 0) → ((slice h.points n res.W).map (· ^ 2)).sum * res.dV = 1)) := by
  have hl : ∀ m, m < size → (stored norm (volumeElement h) (data m)).length = h.points := by
    intro m hm
    obtain ⟨_, _, hl⟩ := hf m hm
    unfold stored
    split
    · rw [normalize_length, hl]
    · exact hl
  refine ⟨⟨h.n, (List.range size).flatMap fun n : Nat => stored norm (volumeElement h) (data n), grid h, volumeElement h⟩, ?_, rfl, rfl, rfl, ?_,
    ?_, ?_⟩
  · unfold initWf
    rw [if_neg (by simp)]
    simp only [h1, readAll_eq norm procs size h.points _ files hp data hf]
    rfl
  · show ((List.range size).flatMap _).length = _
    rw [List.length_flatMap, List.map_congr_left (g := fun _ : Nat => h.points) fun m hm => hl m (List.mem_range.1 hm)]
    simp
  · rintro rfl n hn
    rw [slice_flatMap _ _ _ hl n hn]
    rfl
  · rintro rfl n hn
    refine ⟨1 / Real.sqrt (((data n).map (· ^ 2)).sum * volumeElement h), by positivity, ?_, ?_⟩
    · rw [slice_flatMap _ _ _ hl n hn]
      show normalize _ _ = _
      unfold normalize
      simp only [mul_one_div]
    · intro hV ⟨x, hx, hx0⟩
      change 0 < volumeElement h at hV
      rw [slice_flatMap _ _ _ hl n hn]
      show ((normalize _ _).map _).sum * volumeElement h = 1
      have hpos : 0 < ((data n).map (· ^ 2)).sum := by
        have h2 : x ^ 2 ≤ ((data n).map (· ^ 2)).sum := List.single_le_sum (by
          intro y hy
          obtain ⟨z, _, rfl⟩ := List.mem_map.1 hy
          positivity) _ (List.mem_map.2 ⟨x, hx, rfl⟩)
        have : 0 < x ^ 2 := by positivity
        linarith
      unfold normalize
      rw [sum_normalize, Real.sq_sqrt (by positivity)]
      field_simp

/-- C150 (missing file). If one of the files is missing, the initialization fails on every number of processes. -/
theorem C150_missing (norm : Bool) (procs size : Nat) (rounded : Head → Head) (files : Nat → Option (Head × List ℝ))
    (n : Nat) (hn : n < size) (h : files (n + 1) = none) (disk : Disk) : initWf false norm procs size rounded files disk = none := by
  unfold initWf
  rw [if_neg (by simp)]
  cases h1 : files 1 with
  | none => rfl
  | some f =>
    have : readAll norm procs size f.1.points (volumeElement f.1) files = none := by
      unfold readAll
      by_cases hp : procs = 0
      · subst hp
        simp [MPI.distribute]
      · obtain ⟨sizes, bounds, hd, hb, _⟩ := MPI.C02_bounds_ranges size procs (by omega)
        rw [hd, Option.bind_some, Option.map_eq_none_iff]
        have hm : n ∈ (List.range procs).flatMap (MPI.boundsRange bounds) := by rw [hb]; exact List.mem_range.2 hn
        obtain ⟨rank, hr, hm⟩ := List.mem_flatMap.1 hm
        have hnone : ∀ {α β : Type} (l : List α) (g : α → Option β) (x : α), x ∈ l → g x = none → l.mapM g = none := by
          intro α β l g x hx hg
          induction l with
          | nil => simp at hx
          | cons a l ih =>
            rw [List.mapM_cons]
            rcases List.mem_cons.1 hx with rfl | hx
            · rw [hg]
              rfl
            · rw [ih hx]
              cases g a <;> rfl
        refine hnone _ _ rank hr ?_
        rw [hnone _ _ n hm (by simp [readOne, h])]
        rfl
    simp only [this]

/-- C150 (buffer). If functions are read from files and buffered, another initialization yields the same
functions on the same grid without access to the original files, whatever the number of processes. Nothing else is written. -/
theorem C150_buffer (norm norm' : Bool) (procs procs' size size' : Nat) (rounded : Head → Head) (files files' : Nat → Option (Head × List ℝ))
    (disk disk' : Disk) (res : Result) (hd : disk.wf = none ∨ disk.xyz = none)
    (h : initWf true norm procs size rounded files disk = some (res, disk')) (hW : res.W ≠ []) (hr : res.r ≠ []) (hn : ∀ h, (rounded h).n = h.n) :
    initWf false norm procs size rounded files disk = some (res, disk) ∧
    ∃ dV, initWf true norm' procs' size' rounded files' disk' = some ({ res with dV := dV }, disk') := by
  have hneg : ¬(true = true ∧ disk.wf.getD [] ≠ [] ∧ disk.xyz.getD [] ≠ []) := by
    rintro ⟨_, h1, h2⟩
    rcases hd with hd | hd
    · exact h1 (by rw [hd]; rfl)
    · exact h2 (by rw [hd]; rfl)
  unfold initWf at h
  rw [if_neg hneg] at h
  cases h1 : files 1 with
  | none => simp [h1] at h
  | some f =>
    cases h2 : readAll norm procs size f.1.points (volumeElement f.1) files with
    | none => simp [h1, h2] at h
    | some W =>
      simp only [h1, h2, if_true, Option.some.injEq, Prod.mk.injEq] at h
      obtain ⟨rfl, rfl⟩ := h
      refine ⟨?_, volumeElement (rounded f.1), ?_⟩
      · unfold initWf
        rw [if_neg (by simp)]
        simp [h1, h2]
      · unfold initWf
        rw [if_pos ⟨rfl, hW, hr⟩]
        simp [hn]

/-- C150 (normalization of buffered functions). Violated: functions buffered by a calculation without normalization are not normalized if this is
requested later. For all data, the buffered functions are those from the files. -/
theorem C150_buffer_violated (procs procs' size : Nat) (hp : 0 < procs) (hs : 0 < size) (rounded : Head → Head) (files : Nat → Option (Head × List ℝ))
    (h : Head) (hpts : 0 < h.points) (data : Nat → List ℝ) (h1 : files 1 = some (h, data 0))
    (hf : ∀ n, n < size → ∃ h', files (n + 1) = some (h', data n) ∧ (data n).length = h.points) (hn : ∀ h, (rounded h).n = h.n) :
    ∃ res disk, initWf true false procs size rounded files ⟨none, none, none⟩ = some (res, disk) ∧
      ∃ res', initWf true true procs' size rounded files disk = some (res', disk) ∧ ∀ n, n < size → slice h.points n res'.W = data n := by
  obtain ⟨res, e, hsh, _, hr, hl, hW, _⟩ := C150_order false procs size hp hs rounded files h data h1 hf ⟨none, none, none⟩
  have e' : ∃ disk, initWf true false procs size rounded files ⟨none, none, none⟩ = some (res, disk) := by
    unfold initWf at e ⊢
    rw [if_neg (by simp)] at e ⊢
    simp only [h1] at e ⊢
    cases h2 : readAll false procs size h.points (volumeElement h) files with
    | none => simp [h2] at e
    | some W =>
      simp only [h2, Option.some.injEq, Prod.mk.injEq] at e ⊢
      exact ⟨_, e.1, rfl⟩
  obtain ⟨disk, e'⟩ := e'
  have n1 : res.W ≠ [] := by
    intro h0
    rw [h0] at hl
    have : 0 < size * h.points := Nat.mul_pos hs hpts
    simp at hl
    omega
  have n2 : res.r ≠ [] := by
    rw [hr]
    unfold Head.points at hpts
    have p0 : h.n.1 ≠ 0 := by rintro h0; simp [h0] at hpts
    have p1 : h.n.2.1 ≠ 0 := by rintro h0; simp [h0] at hpts
    have p2 : h.n.2.2 ≠ 0 := by rintro h0; simp [h0] at hpts
    unfold grid Misc.flatC
    simp only [ne_eq, List.flatMap_eq_nil_iff, List.mem_range, List.map_eq_nil_iff, List.range_eq_nil]
    intro hc
    exact p2 (hc 0 (by omega) 0 (by omega))
  obtain ⟨_, dV, h3⟩ := C150_buffer false true procs procs' size size rounded files files _ disk res (Or.inl rfl) e' n1 n2 hn
  exact ⟨res, disk, e', _, h3, hW rfl⟩

example : ∃ (h : Head) (data : Nat → List ℝ) (files : Nat → Option (Head × List ℝ)), 0 < h.points ∧ files 1 = some (h, data 0) ∧
    (∀ n, n < 2 → ∃ h', files (n + 1) = some (h', data n) ∧ (data n).length = h.points) ∧ 0 < volumeElement h ∧
    ((data 0).map (· ^ 2)).sum * volumeElement h ≠ 1 := by
  refine ⟨⟨(2, 1, 1), fun _ => 0, ![![1, 0, 0], ![0, 1, 0], ![0, 0, 1]]⟩, fun n => [(n : ℝ) + 2, -1],
    fun n => some (⟨(2, 1, 1), fun _ => 0, ![![1, 0, 0], ![0, 1, 0], ![0, 0, 1]]⟩, [((n - 1 : ℕ) : ℝ) + 2, -1]), by decide, by simp, ?_, ?_, ?_⟩
  · intro n _
    exact ⟨_, rfl, rfl⟩
  · simp [volumeElement, dot3, cross, Head.points]
  · simp [volumeElement, dot3, cross, Head.points]
    norm_num

end Verif.Wannier
