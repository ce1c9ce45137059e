import Verif.Bands.Model
import Mathlib.Tactic.Linarith
import Mathlib.Tactic.FinCases
import Mathlib.Tactic.IntervalCases
import Mathlib.Analysis.InnerProductSpace.Orthonormal
import Mathlib.Analysis.InnerProductSpace.PiL2
import Mathlib.Data.List.Perm.Subperm

/-! # Properties C33, C67, C68 -/

namespace Verif.Bands

theorem argmax_spec (key : Nat → ℝ) (l : List Nat) :
    match argmax key l with
    | none => l = []
    | some j => j ∈ l ∧ ∀ m ∈ l, key m ≤ key j := by
  induction l with
  | nil => rfl
  | cons a l ih =>
    unfold argmax
    cases h : argmax key l with
    | none =>
      rw [h] at ih
      subst ih
      simp
    | some m =>
      rw [h] at ih
      obtain ⟨h1, h2⟩ := ih
      by_cases hle : key m ≤ key a
      · simp only [if_pos hle]
        refine ⟨List.mem_cons_self, ?_⟩
        intro x hx
        rcases List.mem_cons.1 hx with rfl | hx
        · exact le_refl _
        · exact (h2 x hx).trans hle
      · simp only [if_neg hle]
        refine ⟨List.mem_cons_of_mem _ h1, ?_⟩
        intro x hx
        rcases List.mem_cons.1 hx with rfl | hx
        · exact (not_le.1 hle).le
        · exact h2 x hx

theorem argmax_some (key : Nat → ℝ) (l : List Nat) (hl : l ≠ []) :
    ∃ j, argmax key l = some j ∧ j ∈ l ∧ ∀ m ∈ l, key m ≤ key j := by
  have := argmax_spec key l
  split at this
  · exact absurd this hl
  · rename_i j hj
    exact ⟨j, hj, this⟩

theorem greedy_subperm (key : Nat → Nat → ℝ) (is available : List Nat)
    (h : is.length ≤ available.length) :
    ∃ row, greedy key available is = some row ∧ row.length = is.length ∧ row.Subperm available := by
  induction is generalizing available with
  | nil => exact ⟨[], by simp [greedy], rfl, List.nil_subperm⟩
  | cons i is ih =>
    have hne : available ≠ [] := by
      rintro rfl
      simp at h
    obtain ⟨j, hj, hmem, _⟩ := argmax_some (key i) available hne
    have hlen : is.length ≤ (available.erase j).length := by
      rw [List.length_erase_of_mem hmem]
      simp only [List.length_cons] at h
      omega
    obtain ⟨row, h1, h2, h3⟩ := ih (available.erase j) hlen
    refine ⟨j :: row, ?_, by simp [h2], ?_⟩
    · simp [greedy, hj, h1]
    · exact ((List.subperm_cons j).2 h3).trans (List.perm_cons_erase hmem).symm.subperm

theorem greedy_perm (key : Nat → Nat → ℝ) (bands : Nat) (ord : List Nat)
    (ho : ord.Perm (List.range bands)) :
    ∃ row, greedy key ord (List.range bands) = some row ∧ row.Perm (List.range bands) := by
  obtain ⟨row, h1, h2, h3⟩ := greedy_subperm key (List.range bands) ord (by rw [ho.length_eq])
  exact ⟨row, h1, (h3.perm_of_length_le (by rw [h2, ho.length_eq])).trans ho⟩

theorem greedy_track (key : Nat → Nat → ℝ) (p : Nat → Nat) (is available : List Nat)
    (hav : ∀ i ∈ is, p i ∈ available) (hnd : (is.map p).Nodup)
    (hkey : ∀ i ∈ is, ∀ j ∈ available, j ≠ p i → key i j < key i (p i)) :
    greedy key available is = some (is.map p) := by
  induction is generalizing available with
  | nil => simp [greedy]
  | cons i is ih =>
    have hi := hav i List.mem_cons_self
    obtain ⟨j, hj, hmem, hmax⟩ := argmax_some (key i) available (List.ne_nil_of_mem hi)
    have hji : j = p i := by
      by_contra hne
      have h1 := hkey i List.mem_cons_self j hmem hne
      have h2 := hmax (p i) hi
      linarith
    rw [List.map_cons, List.nodup_cons] at hnd
    have := ih (available.erase (p i)) (by
        intro i' hi'
        refine (List.mem_erase_of_ne ?_).2 (hav i' (List.mem_cons_of_mem _ hi'))
        intro he
        exact hnd.1 (he ▸ List.mem_map_of_mem hi')) hnd.2
      (fun i' hi' j hj hne => hkey i' (List.mem_cons_of_mem _ hi') j (List.mem_of_mem_erase hj) hne)
    simp [greedy, hj, hji, this]

/-! ## C33 -/

variable {d : Nat}

theorem orderRows_perm (bands : Nat) (v : Nat → Nat → ℝ) (V : Nat → Nat → Fin d → ℂ)
    (dv : Option ℝ) (eps : ℝ) (ord : Nat → List Nat) (ho : ∀ n, (ord n).Perm (List.range bands))
    (m n n0 : Nat) (prev : List Nat) :
    ∃ rows, orderRows bands v V dv eps ord m n n0 prev = some rows ∧ rows.length = m ∧
      ∀ row ∈ rows, row.Perm (List.range bands) := by
  induction m generalizing n n0 prev with
  | zero => exact ⟨[], rfl, rfl, by simp⟩
  | succ m ih =>
    obtain ⟨row, h1, h2⟩ := greedy_perm (orderKey v V dv n0 n prev) bands (ord n) (ho n)
    unfold orderRows
    rw [h1]
    simp only
    split
    · obtain ⟨rows, h3, h4, h5⟩ := ih (n + 1) n row
      refine ⟨row :: rows, by rw [h3]; rfl, by simp [h4], ?_⟩
      intro r hr
      rcases List.mem_cons.1 hr with rfl | hr
      · exact h2
      · exact h5 r hr
    · obtain ⟨rows, h3, h4, h5⟩ := ih (n + 1) n0 prev
      refine ⟨row :: rows, by rw [h3]; rfl, by simp [h4], ?_⟩
      intro r hr
      rcases List.mem_cons.1 hr with rfl | hr
      · exact h2
      · exact h5 r hr

theorem map_getD_perm (row cols : List Nat) (bands : Nat) (hr : row.Perm (List.range bands))
    (hc : cols.Perm (List.range bands)) :
    (cols.map fun i => row.getD i 0).Perm (List.range bands) := by
  have h1 := hc.map fun i => row.getD i 0
  refine h1.trans ?_
  have hlen : row.length = bands := by rw [hr.length_eq, List.length_range]
  have : (List.range bands).map (fun i => row.getD i 0) = row := by
    apply List.ext_getElem
    · simp [hlen]
    · intro i h1 h2
      simp [List.getD_eq_getElem?_getD, List.getElem?_eq_getElem h2]
  rw [this]
  exact hr

/-- C33. For all eigenvalues, eigenvectors, options and orders of iteration, `band_order` returns one row
per point, and each row is a permutation of the bands. -/
theorem C33_permutation (points bands : Nat) (hp : 0 < points) (v : Nat → Nat → ℝ)
    (V : Nat → Nat → Fin d → ℂ) (byMean : Bool) (dv : Option ℝ) (eps : ℝ) (ord : Nat → List Nat)
    (ho : ∀ n, (ord n).Perm (List.range bands)) :
    ∃ o, bandOrder points bands v V byMean dv eps ord = some o ∧ o.length = points ∧
      ∀ row ∈ o, row.Perm (List.range bands) := by
  obtain ⟨m, rfl⟩ : ∃ m, points = m + 1 := ⟨points - 1, by omega⟩
  obtain ⟨rows, h1, h2, h3⟩ := orderRows_perm bands v V dv eps ord ho m 1 0 (List.range bands)
  have hraw : rawOrder (m + 1) bands v V dv eps ord = some (List.range bands :: rows) := by
    simp [rawOrder, h1]
  have hperm : ∀ row ∈ List.range bands :: rows, row.Perm (List.range bands) := by
    intro row hr
    rcases List.mem_cons.1 hr with rfl | hr
    · exact List.Perm.refl _
    · exact h3 row hr
  unfold bandOrder
  rw [hraw, Option.map_some]
  cases byMean
  · exact ⟨_, rfl, by simp [h2], hperm⟩
  · refine ⟨_, rfl, by simp [h2], ?_⟩
    intro row hr
    simp only [if_true] at hr
    obtain ⟨r, hr', rfl⟩ := List.mem_map.1 hr
    exact map_getD_perm r _ bands (hperm r hr') (List.mergeSort_perm _ _)

/-- C33 (start). Without sorting by mean, the bands are in their original order at the first point. -/
theorem C33_start (points bands : Nat) (hp : 0 < points) (v : Nat → Nat → ℝ)
    (V : Nat → Nat → Fin d → ℂ) (dv : Option ℝ) (eps : ℝ) (ord : Nat → List Nat)
    (ho : ∀ n, (ord n).Perm (List.range bands)) :
    ∃ o, bandOrder points bands v V false dv eps ord = some o ∧ o[0]? = some (List.range bands) := by
  obtain ⟨m, rfl⟩ : ∃ m, points = m + 1 := ⟨points - 1, by omega⟩
  obtain ⟨rows, h1, h2, h3⟩ := orderRows_perm bands v V dv eps ord ho m 1 0 (List.range bands)
  refine ⟨List.range bands :: rows, ?_, rfl⟩
  simp [bandOrder, rawOrder, h1]

/-- Sum over all points of the eigenvalue that row `n` of `o` assigns to position `i`. -/
def total (v : Nat → Nat → ℝ) (o : List (List Nat)) (i : Nat) : ℝ :=
  ∑ n ∈ Finset.range o.length, v n ((o.getD n []).getD i 0)

theorem columnSum_eq (v : Nat → Nat → ℝ) (o : List (List Nat)) (k i : Nat) :
    columnSum v k o i = ∑ n ∈ Finset.range o.length, v (k + n) ((o.getD n []).getD i 0) := by
  induction o generalizing k with
  | nil => simp [columnSum]
  | cons row rows ih =>
    rw [columnSum, ih, List.length_cons, Finset.sum_range_succ']
    simp only [List.getD_cons_zero, List.getD_cons_succ, add_zero]
    rw [add_comm]
    congr 1
    apply Finset.sum_congr rfl
    intro n _
    rw [show k + 1 + n = k + (n + 1) by omega]

/-- C33 (sorting by mean). Sorting by mean reorders the columns of the unsorted result, in the same way at
all points, such that the mean eigenvalues are ascending. -/
theorem C33_by_mean (points bands : Nat) (hp : 0 < points) (v : Nat → Nat → ℝ)
    (V : Nat → Nat → Fin d → ℂ) (dv : Option ℝ) (eps : ℝ) (ord : Nat → List Nat)
    (ho : ∀ n, (ord n).Perm (List.range bands)) :
    ∃ (o o' : List (List Nat)) (cols : List Nat), bandOrder points bands v V false dv eps ord = some o ∧
      bandOrder points bands v V true dv eps ord = some o' ∧ cols.Perm (List.range bands) ∧
      o' = o.map (fun row => cols.map fun i => row.getD i 0) ∧
      ∀ i j, i < j → j < bands → total v o' i ≤ total v o' j := by
  obtain ⟨o, h1, h2, h3⟩ := C33_permutation points bands hp v V false dv eps ord ho
  have hraw : rawOrder points bands v V dv eps ord = some o := by
    rw [bandOrder] at h1
    simpa using h1
  classical
  set cols := (List.range bands).mergeSort fun i j =>
    decide (columnSum v 0 o i ≤ columnSum v 0 o j) with hcols
  have hperm : cols.Perm (List.range bands) := List.mergeSort_perm _ _
  refine ⟨o, o.map (fun row => cols.map fun i => row.getD i 0), cols, h1, ?_, hperm, rfl, ?_⟩
  · simp only [bandOrder, hraw, Option.map_some, if_true]
    congr
  · have hsorted : cols.Pairwise fun i j => columnSum v 0 o i ≤ columnSum v 0 o j := by
      have := List.pairwise_mergeSort (le := fun i j => decide (columnSum v 0 o i ≤ columnSum v 0 o j))
        (by intro a b c; simp only [decide_eq_true_eq]; exact le_trans)
        (by intro a b; simp only [Bool.or_eq_true, decide_eq_true_eq]; exact le_total _ _)
        (List.range bands)
      refine this.imp ?_
      intro a b h
      simpa using h
    intro i j hij hj
    have hlen : cols.length = bands := by rw [hperm.length_eq, List.length_range]
    have e : ∀ x, x < bands → total v (o.map fun row => cols.map fun i => row.getD i 0) x =
        columnSum v 0 o (cols.getD x 0) := by
      intro x hx
      rw [columnSum_eq, total, List.length_map]
      apply Finset.sum_congr rfl
      intro n hn
      rw [Finset.mem_range] at hn
      have hx' : x < cols.length := by omega
      simp [List.getD_eq_getElem?_getD, List.getElem?_eq_getElem hn, List.getElem?_eq_getElem hx']
    rw [e i (by omega), e j hj]
    have hi' : i < cols.length := by omega
    have hj' : j < cols.length := by omega
    have := List.pairwise_iff_getElem.1 hsorted i j hi' hj' hij
    simpa [List.getD_eq_getElem?_getD, List.getElem?_eq_getElem hi',
      List.getElem?_eq_getElem hj'] using this

/-- Orthonormal reference states. -/
def Orthonormal' (bands : Nat) (e : Nat → Fin d → ℂ) : Prop :=
  ∀ i, i < bands → ∀ j, j < bands → ∑ x, e i x * star (e j x) = if i = j then 1 else 0

theorem overlap_phase (bands : Nat) (e : Nat → Fin d → ℂ) (he : Orthonormal' bands e) (i j : Nat)
    (hi : i < bands) (hj : j < bands) (a b : ℂ) (ha : ‖a‖ = 1) (hb : ‖b‖ = 1) :
    overlap (fun x => a * e i x) (fun x => b * e j x) = if i = j then 1 else 0 := by
  unfold overlap
  have : ∑ x, a * e i x * star (b * e j x) = a * star b * ∑ x, e i x * star (e j x) := by
    rw [Finset.mul_sum]
    apply Finset.sum_congr rfl
    intro x _
    rw [star_mul']
    ring
  rw [this, he i hi j hj, norm_mul, norm_mul, norm_star, ha, hb]
  split <;> simp

theorem orderRows_track (bands : Nat) (v : Nat → Nat → ℝ) (V : Nat → Nat → Fin d → ℂ)
    (dv : Option ℝ) (eps : ℝ) (ord : Nat → List Nat) (ho : ∀ n, (ord n).Perm (List.range bands))
    (e : Nat → Fin d → ℂ) (he : Orthonormal' bands e) (p : Nat → Nat → Nat)
    (hp : ∀ n, ((List.range bands).map (p n)).Perm (List.range bands)) (c : Nat → Nat → ℂ)
    (hc : ∀ n i, ‖c n i‖ = 1) (hV : ∀ n i, i < bands → V n (p n i) = fun x => c n i * e i x)
    (hdv : ∀ dv', dv = some dv' → ∀ n0 n i, i < bands → |v n0 (p n0 i) - v n (p n i)| < dv')
    (m n n0 : Nat) (prev : List Nat) (hprev : prev = (List.range bands).map (p n0)) :
    orderRows bands v V dv eps ord m n n0 prev =
      some ((List.range m).map fun k => (List.range bands).map (p (n + k))) := by
  induction m generalizing n n0 prev with
  | zero => rfl
  | succ m ih =>
    have hrow : greedy (orderKey v V dv n0 n prev) (ord n) (List.range bands) =
        some ((List.range bands).map (p n)) := by
      apply greedy_track
      · intro i hi
        exact (ho n).mem_iff.2 ((hp n).mem_iff.1 (List.mem_map_of_mem hi))
      · exact (hp n).nodup_iff.2 List.nodup_range
      · intro i hi j hj hne
        have hib : i < bands := List.mem_range.1 hi
        have hj' := (hp n).mem_iff.2 ((ho n).mem_iff.1 hj)
        obtain ⟨i', hi', rfl⟩ := List.mem_map.1 hj'
        have hib' : i' < bands := List.mem_range.1 hi'
        have hne' : i ≠ i' := fun h => hne (by rw [h])
        have hpi : prev.getD i 0 = p n0 i := by
          rw [hprev, List.getD_eq_getElem?_getD, List.getElem?_map, List.getElem?_range hib]
          rfl
        have k1 : orderKey v V dv n0 n prev i (p n i) = 1 := by
          unfold orderKey
          simp only [hpi, hV n0 i hib, hV n i hib]
          cases hdvo : dv with
          | none =>
            simp only
            rw [overlap_phase bands e he i i hib hib _ _ (hc _ _) (hc _ _), if_pos rfl]
          | some dv' =>
            simp only
            rw [if_pos (hdv dv' hdvo n0 n i hib),
              overlap_phase bands e he i i hib hib _ _ (hc _ _) (hc _ _), if_pos rfl]
        have k2 : orderKey v V dv n0 n prev i (p n i') = 0 := by
          unfold orderKey
          simp only [hpi, hV n0 i hib, hV n i' hib']
          cases dv with
          | none =>
            simp only
            rw [overlap_phase bands e he i i' hib hib' _ _ (hc _ _) (hc _ _), if_neg hne']
          | some dv' =>
            simp only
            rw [overlap_phase bands e he i i' hib hib' _ _ (hc _ _) (hc _ _), if_neg hne', ite_self]
        rw [k1, k2]
        norm_num
    have hsucc : (List.range (m + 1)).map (fun k => (List.range bands).map (p (n + k))) =
        (List.range bands).map (p n) ::
          (List.range m).map fun k => (List.range bands).map (p (n + 1 + k)) := by
      rw [List.range_succ_eq_map, List.map_cons, List.map_map, Nat.add_zero]
      congr 1
      apply List.map_congr_left
      intro k _
      simp only [Function.comp]
      rw [show n + 1 + k = n + k.succ by omega]
    unfold orderRows
    rw [hrow, hsucc]
    simp only
    split
    · rw [ih (n + 1) n _ rfl, Option.map_some]
    · rw [ih (n + 1) n0 prev hprev, Option.map_some]

/-- C33 (tracking). If the eigenvectors at all points are the same orthonormal states in an order that
changes from point to point (`p n i` is the position of state `i` at point `n`, beginning with the
identity) and up to arbitrary phases, and eigenvalues of the same state differ by less than `dv`, then
`band_order` recovers the order at all points, also across degenerate points. -/
theorem C33_tracking (points bands : Nat) (hpts : 0 < points) (v : Nat → Nat → ℝ)
    (V : Nat → Nat → Fin d → ℂ) (dv : Option ℝ) (eps : ℝ) (ord : Nat → List Nat)
    (ho : ∀ n, (ord n).Perm (List.range bands)) (e : Nat → Fin d → ℂ) (he : Orthonormal' bands e)
    (p : Nat → Nat → Nat) (hp : ∀ n, ((List.range bands).map (p n)).Perm (List.range bands))
    (h0 : ∀ i, p 0 i = i) (c : Nat → Nat → ℂ) (hc : ∀ n i, ‖c n i‖ = 1)
    (hV : ∀ n i, i < bands → V n (p n i) = fun x => c n i * e i x)
    (hdv : ∀ dv', dv = some dv' → ∀ n0 n i, i < bands → |v n0 (p n0 i) - v n (p n i)| < dv') :
    bandOrder points bands v V false dv eps ord =
      some ((List.range points).map fun n => (List.range bands).map (p n)) := by
  obtain ⟨m, rfl⟩ : ∃ m, points = m + 1 := ⟨points - 1, by omega⟩
  have hid : (List.range bands).map (p 0) = List.range bands := by
    conv_rhs => rw [← List.map_id (List.range bands)]
    exact List.map_congr_left fun i _ => h0 i
  have := orderRows_track bands v V dv eps ord ho e he p hp c hc hV hdv m 1 0 (List.range bands) hid.symm
  simp only [bandOrder, rawOrder, this, Option.map_some, Bool.false_eq_true, if_false]
  rw [List.range_succ_eq_map, List.map_cons, List.map_map, hid]
  congr 2
  apply List.map_congr_left
  intro k _
  simp only [Function.comp]
  rw [show 1 + k = k.succ by omega]

/-- The hypotheses of `C33_tracking` are met by two states that swap at every other point. -/
example : Orthonormal' (d := 2) 2 (fun i x => if x.val = i then 1 else 0) ∧
    (∀ n, ((List.range 2).map fun i => if n % 2 = 0 then i else 1 - i).Perm (List.range 2)) := by
  constructor
  · intro i hi j hj
    interval_cases i <;> interval_cases j <;> simp [Fin.sum_univ_two]
  · intro n
    have : List.range 2 = [0, 1] := rfl
    rw [this]
    rcases Nat.mod_two_eq_zero_or_one n with h | h <;> simp [h]
    exact List.Perm.swap _ _ _

/-! ## C67 -/

/-- C67. `map_dispersions` assigns every band of the first set to exactly one band of the second. -/
theorem C67_permutation (bands : Nat) (V1 V2 : Nat → Fin d → ℂ) (ord : List Nat)
    (ho : ord.Perm (List.range bands)) :
    ∃ row, mapBands bands V1 V2 ord = some row ∧ row.Perm (List.range bands) :=
  greedy_perm _ bands ord ho

/-- C67 (matching). If the second set consists of the (orthonormal) states of the first set in another
order and with other phases, the mapping is this order. -/
theorem C67_matching (bands : Nat) (V1 V2 : Nat → Fin d → ℂ) (ord : List Nat)
    (ho : ord.Perm (List.range bands)) (h1 : Orthonormal' bands V1) (p : Nat → Nat)
    (hp : ((List.range bands).map p).Perm (List.range bands)) (c : Nat → ℂ) (hc : ∀ i, ‖c i‖ = 1)
    (h2 : ∀ i, i < bands → V2 (p i) = fun x => c i * V1 i x) :
    mapBands bands V1 V2 ord = some ((List.range bands).map p) := by
  apply greedy_track
  · intro i hi
    exact ho.mem_iff.2 (hp.mem_iff.1 (List.mem_map_of_mem hi))
  · exact hp.nodup_iff.2 List.nodup_range
  · intro i hi j hj hne
    have hib := List.mem_range.1 hi
    obtain ⟨i', hi', rfl⟩ := List.mem_map.1 (hp.mem_iff.2 (ho.mem_iff.1 hj))
    have hib' := List.mem_range.1 hi'
    have hne' : i ≠ i' := fun h => hne (by rw [h])
    have k : ∀ j, j < bands → overlap (V1 i) (V2 (p j)) = if i = j then 1 else 0 := by
      intro j hj
      have := overlap_phase bands V1 h1 i j hib hj 1 (c j) (by simp) (hc j)
      simp only [one_mul] at this
      rw [h2 j hj]
      exact this
    rw [k i hib, k i' hib', if_pos rfl, if_neg hne']
    norm_num

example : Orthonormal' (d := 2) 2 (fun i x => if x.val = i then 1 else 0) ∧
    ((List.range 2).map fun i => 1 - i).Perm (List.range 2) := by
  refine ⟨?_, List.Perm.swap _ _ _⟩
  intro i hi j hj
  interval_cases i <;> interval_cases j <;> simp [Fin.sum_univ_two]

/-! ## C68 -/

variable {c b0 d0 : Nat} {β : Type}

/-- C68 (nonnegative). Unfolding weights are never negative. -/
theorem weight_nonneg (bands : Nat) (phase : Fin c → ℂ) (U0 : Fin d0 → Fin b0 → ℂ)
    (U : Fin c × Fin d0 → β → ℂ) (n : β) : 0 ≤ weight bands phase U0 U n :=
  Finset.sum_nonneg fun _ _ => by positivity

/-- The Bloch extension of the state `m` of the unit cell to the supercell. -/
noncomputable def blochState (phase : Fin c → ℂ) (U0 : Fin d0 → Fin b0 → ℂ) (m : Fin b0) :
    Fin c × Fin d0 → ℂ :=
  fun x => star (phase x.1) * U0 x.2 m / (Real.sqrt c : ℂ)

theorem weight_eq (bands : Nat) (hb : bands = c * b0) (phase : Fin c → ℂ) (U0 : Fin d0 → Fin b0 → ℂ)
    (U : Fin c × Fin d0 → β → ℂ) (n : β) :
    weight bands phase U0 U n = ∑ m, ‖∑ x, star (blochState phase U0 m x) * U x n‖ ^ 2 := by
  unfold weight
  apply Finset.sum_congr rfl
  intro m _
  have hb0 : (b0 : ℝ) ≠ 0 := by
    have := m.2
    exact_mod_cast (by omega : b0 ≠ 0)
  have hq : (bands : ℝ) / (b0 : ℝ) = c := by
    rw [hb, Nat.cast_mul]
    field_simp
  rw [hq, Fintype.sum_prod_type]
  congr 2
  apply Finset.sum_congr rfl
  intro r _
  rw [Finset.mul_sum]
  apply Finset.sum_congr rfl
  intro a _
  simp only [blochState, star_div₀, star_mul', star_star]
  ring

/-- The columns of `U` are orthonormal. -/
def ColumnsOrthonormal {α γ : Type} [Fintype α] [DecidableEq γ] (U : α → γ → ℂ) : Prop :=
  ∀ m n, ∑ a, star (U a m) * U a n = if m = n then 1 else 0

/-- The rows of `U` are orthonormal, i.e., the columns are complete. -/
def RowsOrthonormal {α γ : Type} [Fintype γ] [DecidableEq α] (U : α → γ → ℂ) : Prop :=
  ∀ x y, ∑ n, U x n * star (U y n) = if x = y then 1 else 0

theorem bloch_orthonormal (phase : Fin c → ℂ) (hph : ∀ r, ‖phase r‖ = 1) (hc : 0 < c)
    (U0 : Fin d0 → Fin b0 → ℂ) (h0 : ColumnsOrthonormal U0) (m m' : Fin b0) :
    ∑ x, star (blochState phase U0 m x) * blochState phase U0 m' x = if m = m' then 1 else 0 := by
  have hs : (Real.sqrt c : ℂ) * (Real.sqrt c : ℂ) = c := by
    rw [← Complex.ofReal_mul, Real.mul_self_sqrt (Nat.cast_nonneg c)]
    simp
  have hc' : (c : ℂ) ≠ 0 := by exact_mod_cast hc.ne'
  have e : ∀ r a, star (blochState phase U0 m (r, a)) * blochState phase U0 m' (r, a) =
      (c : ℂ)⁻¹ * (star (U0 a m) * U0 a m') := by
    intro r a
    have h1 : phase r * star (phase r) = 1 := by
      have := Complex.mul_conj (phase r)
      rw [Complex.normSq_eq_norm_sq, hph r] at this
      simpa using this
    simp only [blochState, star_div₀, star_mul', star_star]
    have h2 : star ((Real.sqrt c : ℝ) : ℂ) = (Real.sqrt c : ℂ) := Complex.conj_ofReal _
    rw [h2, div_mul_div_comm, hs]
    field_simp
    linear_combination (star (U0 a m) * U0 a m') * h1
  rw [Fintype.sum_prod_type]
  simp only [e]
  simp only [← Finset.mul_sum, h0 m m']
  rw [Finset.sum_const, Finset.card_univ, Fintype.card_fin]
  split
  · simp [hc']
  · simp

/-- C68 (sum rule). For orthonormal states of the unit cell and a complete set of states of the supercell,
with as many bands per cell in both, the weights at a k point sum to the number of unfolded bands. -/
theorem weight_sum [Fintype β] (bands : Nat) (hb : bands = c * b0) (hc : 0 < c) (phase : Fin c → ℂ)
    (hph : ∀ r, ‖phase r‖ = 1) (U0 : Fin d0 → Fin b0 → ℂ) (h0 : ColumnsOrthonormal U0)
    (U : Fin c × Fin d0 → β → ℂ) (hU : RowsOrthonormal U) :
    ∑ n, weight bands phase U0 U n = b0 := by
  simp only [weight_eq bands hb]
  rw [Finset.sum_comm]
  have key : ∀ m : Fin b0, ∑ n, ‖∑ x, star (blochState phase U0 m x) * U x n‖ ^ 2 = 1 := by
    intro m
    have h := bloch_orthonormal phase hph hc U0 h0 m m
    rw [if_pos rfl] at h
    apply Complex.ofReal_injective
    rw [Complex.ofReal_sum, Complex.ofReal_one, ← h]
    have e : ∀ n, ((‖∑ x, star (blochState phase U0 m x) * U x n‖ ^ 2 : ℝ) : ℂ) =
        ∑ x, ∑ y, star (blochState phase U0 m x) * blochState phase U0 m y * (U x n * star (U y n)) := by
      intro n
      rw [← Complex.normSq_eq_norm_sq, ← Complex.mul_conj, map_sum, Finset.sum_mul_sum]
      apply Finset.sum_congr rfl
      intro x _
      apply Finset.sum_congr rfl
      intro y _
      rw [map_mul]
      simp only [starRingEnd_apply, star_star]
      ring
    simp only [e]
    rw [Finset.sum_comm]
    apply Finset.sum_congr rfl
    intro x _
    rw [Finset.sum_comm]
    simp only [← Finset.mul_sum, hU x]
    simp
  rw [Finset.sum_congr rfl fun m _ => key m]
  simp

/-- C68 (bounded). With orthonormal states of the unit cell, the weight of a normalized supercell state is
at most one. -/
theorem weight_le_one (bands : Nat) (hb : bands = c * b0) (hc : 0 < c) (phase : Fin c → ℂ)
    (hph : ∀ r, ‖phase r‖ = 1) (U0 : Fin d0 → Fin b0 → ℂ) (h0 : ColumnsOrthonormal U0)
    (U : Fin c × Fin d0 → β → ℂ) (n : β) (hn : ∑ x, ‖U x n‖ ^ 2 = 1) :
    weight bands phase U0 U n ≤ 1 := by
  rw [weight_eq bands hb]
  let φ : Fin b0 → EuclideanSpace ℂ (Fin c × Fin d0) := fun m => WithLp.toLp 2 (blochState phase U0 m)
  have hin : ∀ (m : Fin b0) (w : Fin c × Fin d0 → ℂ), inner ℂ (φ m) (WithLp.toLp 2 w) =
      ∑ x, star (blochState phase U0 m x) * w x := by
    intro m w
    rw [EuclideanSpace.inner_toLp_toLp, dotProduct]
    exact Finset.sum_congr rfl fun x _ => mul_comm _ _
  have hφ : Orthonormal ℂ φ := by
    rw [orthonormal_iff_ite]
    intro i j
    rw [hin i, bloch_orthonormal phase hph hc U0 h0]
  have := hφ.sum_inner_products_le (WithLp.toLp 2 fun x => U x n) (s := Finset.univ)
  rw [EuclideanSpace.norm_sq_eq] at this
  simp only [hin] at this
  exact this.trans hn.le

/-- C68 (own momentum). A Bloch state of the supercell at the same k point has weight one, if the states
of the unit cell are complete. -/
theorem weight_bloch (bands : Nat) (hb : bands = c * b0) (hc : 0 < c) (phase : Fin c → ℂ)
    (hph : ∀ r, ‖phase r‖ = 1) (U0 : Fin d0 → Fin b0 → ℂ) (h0 : RowsOrthonormal U0)
    (U : Fin c × Fin d0 → β → ℂ) (n : β) (ψ : Fin d0 → ℂ) (hψ : ∑ a, ‖ψ a‖ ^ 2 = 1)
    (hU : ∀ r a, U (r, a) n = star (phase r) * ψ a / (Real.sqrt c : ℂ)) :
    weight bands phase U0 U n = 1 := by
  rw [weight_eq bands hb]
  have hs : (Real.sqrt c : ℂ) * (Real.sqrt c : ℂ) = c := by
    rw [← Complex.ofReal_mul, Real.mul_self_sqrt (Nat.cast_nonneg c)]
    simp
  have hc' : (c : ℂ) ≠ 0 := by exact_mod_cast hc.ne'
  have e : ∀ m, ∑ x, star (blochState phase U0 m x) * U x n = ∑ a, star (U0 a m) * ψ a := by
    intro m
    have e' : ∀ r a, star (blochState phase U0 m (r, a)) * U (r, a) n =
        (c : ℂ)⁻¹ * (star (U0 a m) * ψ a) := by
      intro r a
      have h1 : phase r * star (phase r) = 1 := by
        have := Complex.mul_conj (phase r)
        rw [Complex.normSq_eq_norm_sq, hph r] at this
        simpa using this
      rw [hU]
      simp only [blochState, star_div₀, star_mul', star_star]
      have h2 : star ((Real.sqrt c : ℝ) : ℂ) = (Real.sqrt c : ℂ) := Complex.conj_ofReal _
      rw [h2, div_mul_div_comm, hs]
      field_simp
      linear_combination (star (U0 a m) * ψ a) * h1
    rw [Fintype.sum_prod_type]
    simp only [e']
    simp only [← Finset.mul_sum]
    rw [Finset.sum_const, Finset.card_univ, Fintype.card_fin]
    simp [hc']
  simp only [e]
  apply Complex.ofReal_injective
  rw [Complex.ofReal_one, ← Complex.ofReal_one, ← hψ, Complex.ofReal_sum, Complex.ofReal_sum]
  have e2 : ∀ m, ((‖∑ a, star (U0 a m) * ψ a‖ ^ 2 : ℝ) : ℂ) =
      ∑ a, ∑ b, ψ a * star (ψ b) * (U0 b m * star (U0 a m)) := by
    intro n
    rw [← Complex.normSq_eq_norm_sq, ← Complex.mul_conj, map_sum, Finset.sum_mul_sum]
    apply Finset.sum_congr rfl
    intro x _
    apply Finset.sum_congr rfl
    intro y _
    rw [map_mul]
    simp only [starRingEnd_apply, star_star]
    ring
  simp only [e2]
  rw [Finset.sum_comm]
  apply Finset.sum_congr rfl
  intro a _
  rw [Finset.sum_comm]
  simp only [← Finset.mul_sum, h0 _ a]
  rw [← Complex.normSq_eq_norm_sq, ← Complex.mul_conj]
  simp

/-- C68 (other momentum). A Bloch state of the supercell at a k point that is inequivalent, i.e., with
orthogonal phases, has weight zero. -/
theorem weight_other (bands : Nat) (hb : bands = c * b0) (phase phase' : Fin c → ℂ)
    (ho : ∑ r, phase r * star (phase' r) = 0) (U0 : Fin d0 → Fin b0 → ℂ)
    (U : Fin c × Fin d0 → β → ℂ) (n : β) (ψ : Fin d0 → ℂ)
    (hU : ∀ r a, U (r, a) n = star (phase' r) * ψ a) :
    weight bands phase U0 U n = 0 := by
  rw [weight_eq bands hb]
  apply Finset.sum_eq_zero
  intro m _
  have e : ∑ x, star (blochState phase U0 m x) * U x n =
      (∑ r, phase r * star (phase' r)) * ∑ a, star (U0 a m) * ψ a / star (Real.sqrt c : ℂ) := by
    rw [Fintype.sum_prod_type, Finset.sum_mul_sum]
    apply Finset.sum_congr rfl
    intro r _
    apply Finset.sum_congr rfl
    intro a _
    rw [hU]
    simp only [blochState, star_div₀, star_mul', star_star]
    ring
  rw [e, ho, zero_mul]
  simp

theorem star_cellPhase (k : Fin 3 → ℝ) (R : Fin c → Fin 3 → ℝ) (r : Fin c) :
    star (cellPhase (-1) k R r) = Complex.exp (Complex.I * ∑ i, (k i : ℂ) * R r i) := by
  unfold cellPhase
  change (starRingEnd ℂ) _ = _
  rw [← Complex.exp_conj, map_mul, Complex.conj_I, Complex.conj_ofReal]
  congr 1
  push_cast
  ring

theorem norm_cellPhase (sgn : ℝ) (k : Fin 3 → ℝ) (R : Fin c → Fin 3 → ℝ) (r : Fin c) :
    ‖cellPhase sgn k R r‖ = 1 := by
  unfold cellPhase
  exact Complex.norm_exp_ofReal_mul_I _

/-- C68 (nonnegative). Unfolding weights are never negative. -/
theorem C68_nonneg (bands : Nat) (sgn : ℝ) (k : Fin 3 → ℝ) (R : Fin c → Fin 3 → ℝ)
    (U0 : Fin d0 → Fin b0 → ℂ) (U : Fin c × Fin d0 → β → ℂ) (n : β) :
    0 ≤ unfoldingWeight bands sgn k R U0 U n :=
  weight_nonneg _ _ _ _ _

/-- C68 (sum rule). For orthonormal states of the unit cell and a complete set of states of the supercell,
with as many bands per cell in both, the weights at a k point sum to the number of unfolded bands. -/
theorem C68_sum [Fintype β] (bands : Nat) (hb : bands = c * b0) (hc : 0 < c) (sgn : ℝ) (k : Fin 3 → ℝ)
    (R : Fin c → Fin 3 → ℝ) (U0 : Fin d0 → Fin b0 → ℂ) (h0 : ColumnsOrthonormal U0)
    (U : Fin c × Fin d0 → β → ℂ) (hU : RowsOrthonormal U) :
    ∑ n, unfoldingWeight bands sgn k R U0 U n = b0 :=
  weight_sum bands hb hc _ (norm_cellPhase _ _ _) U0 h0 U hU

/-- C68 (bounded). With orthonormal states of the unit cell, the weight of a normalized supercell state is
at most one. -/
theorem C68_le_one (bands : Nat) (hb : bands = c * b0) (hc : 0 < c) (sgn : ℝ) (k : Fin 3 → ℝ)
    (R : Fin c → Fin 3 → ℝ) (U0 : Fin d0 → Fin b0 → ℂ) (h0 : ColumnsOrthonormal U0)
    (U : Fin c × Fin d0 → β → ℂ) (n : β) (hn : ∑ x, ‖U x n‖ ^ 2 = 1) :
    unfoldingWeight bands sgn k R U0 U n ≤ 1 :=
  weight_le_one bands hb hc _ (norm_cellPhase _ _ _) U0 h0 U n hn

/-- C68 (own momentum). A Bloch state of the supercell at the same k point, in the default convention
`ψ exp(i k R)`, has weight one, if the states of the unit cell are complete. -/
theorem C68_bloch (bands : Nat) (hb : bands = c * b0) (hc : 0 < c) (k : Fin 3 → ℝ)
    (R : Fin c → Fin 3 → ℝ) (U0 : Fin d0 → Fin b0 → ℂ) (h0 : RowsOrthonormal U0)
    (U : Fin c × Fin d0 → β → ℂ) (n : β) (ψ : Fin d0 → ℂ) (hψ : ∑ a, ‖ψ a‖ ^ 2 = 1)
    (hU : ∀ r a, U (r, a) n = Complex.exp (Complex.I * ∑ i, (k i : ℂ) * R r i) * ψ a / (Real.sqrt c : ℂ)) :
    unfoldingWeight bands (-1) k R U0 U n = 1 := by
  apply weight_bloch bands hb hc _ (norm_cellPhase _ _ _) U0 h0 U n ψ hψ
  intro r a
  rw [hU, star_cellPhase]

/-- C68 (other momentum). A Bloch state of the supercell at a k point `k'` that is folded to the same point
as `k` without being equivalent, has weight zero. -/
theorem C68_other (bands : Nat) (hb : bands = c * b0) (k k' : Fin 3 → ℝ) (R : Fin c → Fin 3 → ℝ)
    (ho : ∑ r, Complex.exp (Complex.I * ∑ i, ((k' i : ℂ) - k i) * R r i) = 0)
    (U0 : Fin d0 → Fin b0 → ℂ) (U : Fin c × Fin d0 → β → ℂ) (n : β) (ψ : Fin d0 → ℂ)
    (hU : ∀ r a, U (r, a) n = Complex.exp (Complex.I * ∑ i, (k' i : ℂ) * R r i) * ψ a) :
    unfoldingWeight bands (-1) k R U0 U n = 0 := by
  apply weight_other bands hb _ (cellPhase (-1) k' R) _ U0 U n ψ
  · intro r a
    rw [hU, star_cellPhase]
  · rw [← ho]
    apply Finset.sum_congr rfl
    intro r _
    rw [star_cellPhase]
    unfold cellPhase
    rw [← Complex.exp_add]
    congr 1
    push_cast
    rw [neg_one_mul, neg_mul, mul_comm _ Complex.I, neg_add_eq_sub, ← mul_sub, ← Finset.sum_sub_distrib]
    simp only [sub_mul]

/-- The hypotheses of the sum rule are met by one orbital in a doubled cell. -/
example : ∑ n, unfoldingWeight 2 (c := 2) (b0 := 1) (d0 := 1) (-1) ![1, 0, 0] ![![0, 0, 0], ![1, 0, 0]] (fun _ _ => 1)
    (fun x (n : Fin 2 × Fin 1) => if x = n then 1 else 0) n = (1 : Nat) := by
  apply C68_sum 2 rfl (by norm_num)
  · intro m n
    simp [Subsingleton.elim m n]
  · intro x y
    simp only [apply_ite star, star_one, star_zero, mul_ite, mul_one, mul_zero]
    by_cases h : x = y
    · subst h
      simp
    · simp [h, Finset.sum_ite, Finset.filter_eq]

end Verif.Bands
