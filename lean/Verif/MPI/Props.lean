import Verif.MPI.Lemmas

/-! # Properties C01-C06 and C61: parallel infrastructure -/

namespace Verif.MPI

/-! ## C01 -/

/-- Specification: `sizes` and `bounds` describe a contiguous balanced partition of
the indices `0, ..., size - 1` among `chunks` processes. -/
structure BalancedPartition (size chunks : Nat) (sizes bounds : List Nat) : Prop where
  /-- one block size per process -/
  length_sizes : sizes.length = chunks
  /-- the sizes add up -/
  sum_sizes : sizes.sum = size
  /-- two blocks differ by at most one item, larger blocks come first -/
  balanced : ∀ r s, r < s → s < chunks →
    sizes.getD s 0 ≤ sizes.getD r 0 ∧ sizes.getD r 0 ≤ sizes.getD s 0 + 1
  /-- one bound more than processes -/
  length_bounds : bounds.length = chunks + 1
  first_bound : bounds.getD 0 0 = 0
  last_bound : bounds.getD chunks 0 = size
  /-- the bounds are consistent with the sizes (hence never decrease) -/
  block : ∀ r, r < chunks → bounds.getD (r + 1) 0 = bounds.getD r 0 + sizes.getD r 0
  /-- every index has exactly one owner -/
  owner : ∀ i, i < size →
    ∃! r, r < chunks ∧ bounds.getD r 0 ≤ i ∧ i < bounds.getD (r + 1) 0

/-- C01. `distribute` succeeds for every size and every positive number of chunks and
returns a balanced contiguous partition; for zero chunks it raises an error. -/
theorem C01_distribute (size chunks : Nat) :
    (chunks = 0 → distribute size chunks = none) ∧
    (0 < chunks → ∃ sizes bounds, distribute size chunks = some (sizes, bounds) ∧
      BalancedPartition size chunks sizes bounds) := by
  constructor
  · intro h; simp [distribute, h]
  intro h
  refine ⟨distSizes size chunks, cumsumFrom 0 (distSizes size chunks), ?_, ?_⟩
  · simp [distribute, show chunks ≠ 0 by omega]
  have hl := length_distSizes size chunks
  have hb : ∀ r, r ≤ chunks → (cumsumFrom 0 (distSizes size chunks)).getD r 0 =
      ((distSizes size chunks).take r).sum := by
    intro r hr; rw [getD_cumsumFrom _ _ _ (by omega)]; omega
  constructor
  · exact hl
  · exact sum_distSizes size chunks h
  · intro r s hrs hs
    rw [getD_distSizes _ _ _ hs, getD_distSizes _ _ _ (by omega)]
    split <;> split <;> omega
  · rw [length_cumsumFrom, hl]
  · rw [hb 0 (by omega)]; simp
  · rw [hb chunks le_rfl, List.take_of_length_le (by omega), sum_distSizes _ _ h]
  · intro r hr
    rw [hb r (by omega), hb (r + 1) (by omega), sum_take_succ]
  · intro i hi
    rw [← sum_distSizes size chunks h] at hi
    obtain ⟨r, h1, h2, h3⟩ := exists_block _ i hi
    refine ⟨r, ⟨by omega, ?_, ?_⟩, ?_⟩
    · rw [hb r (by omega)]; exact h2
    · rw [hb (r + 1) (by omega)]; exact h3
    · rintro s ⟨g1, g2, g3⟩
      rw [hb s (by omega)] at g2
      rw [hb (s + 1) (by omega)] at g3
      exact block_unique _ i s r g2 g3 h2 h3

example : distribute 11 4 = some ([3, 3, 3, 2], [0, 3, 6, 9, 11]) := by decide
example : distribute 2 4 = some ([1, 1, 0, 0], [0, 1, 2, 2, 2]) := by decide

/-! ## C02 -/

/-- C02 (result). Scatter, local loops and gather give the serial result for every
number of processes. -/
theorem C02_parMap {α β : Type} (n : Nat) (hn : 0 < n) (f : α → β) (xs : List α) :
    parMap n f xs = some (xs.map f) := by
  simp only [parMap, distribute, show n ≠ 0 by omega, if_false, Option.map_some, gatherv]
  congr 1
  rw [← List.map_flatten, flatten_scatterv _ _ (sum_distSizes _ _ hn)]

/-- C02 (local index ranges). Running over `range(*bounds[rank:rank + 2])` instead of
scattered data visits the same points: concatenated over the ranks, the ranges are
`0, ..., size - 1` in order. -/
theorem C02_bounds_ranges (size n : Nat) (hn : 0 < n) :
    ∃ sizes bounds, distribute size n = some (sizes, bounds) ∧
      (List.range n).flatMap (boundsRange bounds) = List.range size ∧
      ∀ r, r < n → (boundsRange bounds r).length = sizes.getD r 0 := by
  obtain ⟨sizes, bounds, h1, h2⟩ := (C01_distribute size n).2 hn
  refine ⟨sizes, bounds, h1, ?_, ?_⟩
  · have key : ∀ m, m ≤ n → (List.range m).flatMap (boundsRange bounds) =
        List.range (bounds.getD m 0) := by
      intro m
      induction m with
      | zero => intro _; rw [h2.first_bound]; rfl
      | succ m ih =>
        intro hm
        have hb := h2.block m (by omega)
        rw [List.range_succ, List.flatMap_append, ih (by omega)]
        simp only [List.flatMap_cons, List.flatMap_nil, List.append_nil, boundsRange]
        rw [hb, Nat.add_sub_cancel_left, List.range_eq_range', List.range_eq_range']
        have := List.range'_append_1 (s := 0) (m := bounds.getD m 0) (n := sizes.getD m 0)
        simpa using this
    rw [key n le_rfl, h2.last_bound]
  · intro r hr
    simp only [boundsRange, List.length_range']
    rw [h2.block r hr]; omega

/-- C02 (schedules). For every interleaving of the processes after which all local
loops have ended, the gathered list is the serial result. -/
theorem C02_any_schedule {α β : Type} (n : Nat) (hn : 0 < n) (f : α → β) (xs : List α)
    (sizes bounds : List Nat) (hd : distribute xs.length n = some (sizes, bounds))
    (sched : List Nat) (hdone : allDone (runSched f (initWorkers sizes xs) sched)) :
    gatherWorkers (runSched f (initWorkers sizes xs) sched) = xs.map f := by
  have hs : sizes = distSizes xs.length n := by
    simp [distribute, show n ≠ 0 by omega] at hd; exact hd.1.symm
  have h1 : (runSched f (initWorkers sizes xs) sched).map Worker.done =
      (runSched f (initWorkers sizes xs) sched).map (Worker.total f) := by
    apply List.map_congr_left
    intro w hw
    simp [Worker.total, hdone w hw]
  unfold gatherWorkers gatherv
  rw [h1, map_total_runSched]
  have h2 : ((initWorkers sizes xs : List (Worker α β)).map (Worker.total f)) =
      (scatterv sizes xs).map (List.map f) := by
    simp [initWorkers, Worker.total, Function.comp_def]
  rw [h2, ← List.map_flatten, flatten_scatterv]
  rw [hs]; exact sum_distSizes _ _ hn

/-- C02 (progress). As long as a process has work left, scheduling it reduces the
number of open items by one; so every fair schedule ends. -/
theorem C02_progress {α β : Type} (f : α → β) (ws : List (Worker α β)) (r : Nat)
    (hr : r < ws.length) (hw : ws[r].todo ≠ []) :
    openItems (schedStep f ws r) + 1 = openItems ws := by
  induction ws generalizing r with
  | nil => simp at hr
  | cons w ws ih =>
    cases r with
    | zero =>
      simp only [List.getElem_cons_zero] at hw
      simp only [schedStep, List.modify_zero_cons, openItems, List.map_cons, List.sum_cons]
      cases ht : w.todo with
      | nil => exact absurd ht hw
      | cons x xs => simp [Worker.step, ht]; omega
    | succ r =>
      have := ih r (by simpa using hr) (by simpa using hw)
      simp only [schedStep, List.modify_succ_cons, openItems, List.map_cons, List.sum_cons] at this ⊢
      omega

example : gatherWorkers (runSched (· + 1) (initWorkers [2, 1] [10, 20, 30]) [1, 0, 0]) =
    [11, 21, 31] := by decide
example : allDone (runSched (· + 1) (initWorkers [2, 1] [10, 20, 30]) [1, 0, 0]) := by
  intro w hw
  simp [runSched, schedStep, initWorkers, scatterv, Worker.step, List.modify] at hw
  rcases hw with rfl | rfl <;> rfl

/-! ## C03 -/

/-- C03 (sum). Dealing out the items to `size` processes, summing the contributions on
every process and summing over the processes gives the serial sum. -/
theorem C03_sum {α M : Type} [AddCommMonoid M] (f : α → M) (size : Nat) (h : 0 < size)
    (xs : List α) :
    (∑ rank ∈ Finset.range size, ((deal size rank xs).map f).sum) = (xs.map f).sum ∧
    (∑ rank ∈ Finset.range size, ((dealWigner size rank xs).map f).sum) = (xs.map f).sum ∧
    (∑ rank ∈ Finset.range size, ((strideFrom size rank xs).map f).sum) = (xs.map f).sum := by
  refine ⟨sum_dealFrom f size h 0 xs, sum_dealFrom f size h 1 xs, ?_⟩
  rw [← sum_dealFrom f size h 0 xs]
  apply Finset.sum_congr rfl
  intro rank hr
  rw [strideFrom_eq_dealFrom size rank (by simpa using hr) 0 rank
    (by simp; exact (Nat.mod_eq_of_lt (by simpa using hr)).symm)]

/-- C03 (ownership). Item number `i` of `len` items is handled by exactly one process;
the `wigner` variant only differs in who handles it. -/
theorem C03_owner (size len i : Nat) (h : 0 < size) (hi : i < len) :
    (∃! rank, rank < size ∧ i ∈ deal size rank (List.range len)) ∧
    (∃! rank, rank < size ∧ i + 1 ∈ dealWigner size rank (List.range' 1 len)) := by
  constructor
  · refine ⟨i % size, ⟨Nat.mod_lt _ h, ?_⟩, ?_⟩
    · rw [List.range_eq_range', deal, mem_dealFrom_range']; exact ⟨by omega, rfl⟩
    · rintro r ⟨_, hr⟩
      rw [List.range_eq_range', deal, mem_dealFrom_range'] at hr; exact hr.2
  · refine ⟨(i + 1) % size, ⟨Nat.mod_lt _ h, ?_⟩, ?_⟩
    · rw [dealWigner, mem_dealFrom_range']; exact ⟨by omega, rfl⟩
    · rintro r ⟨_, hr⟩
      rw [dealWigner, mem_dealFrom_range'] at hr; exact hr.2

/-- C03 (multiplicity). Every item occurs in the union over all processes as often as
in the original list. -/
theorem C03_count {α : Type} [DecidableEq α] (size : Nat) (h : 0 < size) (xs : List α) (a : α) :
    (∑ rank ∈ Finset.range size, (deal size rank xs).count a) = xs.count a ∧
    (∑ rank ∈ Finset.range size, (dealWigner size rank xs).count a) = xs.count a :=
  ⟨count_dealFrom size h 0 xs a, count_dealFrom size h 1 xs a⟩

example : deal 3 1 [10, 11, 12, 13, 14] = [11, 14] := by decide
example : dealWigner 3 1 [10, 11, 12, 13, 14] = [10, 13] := by decide
example : strideFrom 3 1 [10, 11, 12, 13, 14] = [11, 14] := by decide

/-! ## C04 -/

/-- C04 (layout). In the process matrix, (rank in column, rank in row) identifies the
process; the processes of one column have the same rank in their rows; the processes
that come first in their column form exactly the first row. -/
theorem C04_layout (nq : Nat) (hq : 0 < nq) (r s : Nat) :
    (colRank nq r = colRank nq s → rowRank nq r = rowRank nq s → r = s) ∧
    (colColor nq r = colColor nq s ↔ rowRank nq r = rowRank nq s) ∧
    (rowColor nq r = rowColor nq s ↔ colRank nq r = colRank nq s) ∧
    (colRank nq r = 0 ↔ rowColor nq r = rowColor nq 0) := by
  simp only [colRank_eq _ _ hq, rowRank_eq _ _ hq, colColor, rowColor]
  refine ⟨?_, trivial, trivial, by simp⟩
  intro h1 h2
  rw [← Nat.div_add_mod r nq, h1, h2, Nat.div_add_mod]

/-- C04 (ownership). For `n` processes and `nq` q points every q point is worked on by
exactly one process that is first in its column; the other processes that work on
it are exactly those of the same column; the row rank is a valid index of `sizes`. -/
theorem C04_owner (n nq : Nat) (hn : 0 < n) (hq : 0 < nq) (iq : Nat) (hi : iq < nq) :
    (∃! r, r < n ∧ colRank nq r = 0 ∧ iq ∈ sampleRange n nq r) ∧
    (∀ r s, r < n → s < n → iq ∈ sampleRange n nq r →
      (iq ∈ sampleRange n nq s ↔ colColor nq r = colColor nq s)) ∧
    (∀ r, r < n → rowRank nq r < n) := by
  obtain ⟨sizes, bounds, h1, h2⟩ := (C01_distribute nq n).2 hn
  have hmem : ∀ r, r < n → (iq ∈ sampleRange n nq r ↔
      rowRank nq r < n ∧ bounds.getD (rowRank nq r) 0 ≤ iq ∧
        iq < bounds.getD (rowRank nq r + 1) 0) := by
    intro r hr
    have hrr : rowRank nq r < n := by
      rw [rowRank_eq _ _ hq]; exact lt_of_le_of_lt (Nat.mod_le _ _) hr
    simp only [sampleRange, h1, boundsRange, List.mem_range'_1]
    have := h2.block _ hrr
    constructor
    · rintro ⟨a, b⟩; exact ⟨hrr, a, by omega⟩
    · rintro ⟨_, a, b⟩; exact ⟨a, by omega⟩
  obtain ⟨o, ⟨ho1, ho2, ho3⟩, huniq⟩ := h2.owner iq hi
  have ho : o < nq := by
    -- blocks are filled from the front, so the owner number is at most iq
    by_contra hc
    push Not at hc
    have hlt : nq < n := by omega
    have hz : ∀ j, j ≤ n → nq ≤ j → bounds.getD j 0 = nq := by
      intro j hj hnj
      have hs : ∀ j, j < n → sizes.getD j 0 = if j < nq then 1 else 0 := by
        intro j hj
        have : sizes = distSizes nq n := by
          simp [distribute, show n ≠ 0 by omega] at h1; exact h1.1.symm
        rw [this, getD_distSizes _ _ _ hj, Nat.div_eq_of_lt hlt, Nat.mod_eq_of_lt hlt]; simp
      have hb : ∀ j, j ≤ n → bounds.getD j 0 = min j nq := by
        intro j
        induction j with
        | zero => intro _; rw [h2.first_bound]; simp
        | succ j ih =>
          intro hj
          rw [h2.block j (by omega), ih (by omega), hs j (by omega)]
          split <;> omega
      rw [hb j hj]; omega
    have := hz o (by omega) hc
    omega
  refine ⟨⟨o, ⟨ho1, ?_, ?_⟩, ?_⟩, ?_, ?_⟩
  · rw [colRank_eq _ _ hq, Nat.div_eq_of_lt ho]
  · rw [hmem o ho1, rowRank_eq _ _ hq, Nat.mod_eq_of_lt ho]; exact ⟨ho1, ho2, ho3⟩
  · rintro r ⟨hr, hc, hm⟩
    rw [hmem r hr] at hm
    have := huniq _ hm
    rw [rowRank_eq _ _ hq] at this
    rw [colRank_eq _ _ hq] at hc
    have e := Nat.div_add_mod r nq
    rw [hc, this] at e
    omega
  · intro r s hr hs hm
    rw [hmem r hr] at hm
    rw [hmem s hs]
    have e1 := huniq _ hm
    have := (C04_layout nq hq r s).2.1
    rw [this]
    constructor
    · intro hm2; rw [e1, huniq _ hm2]
    · intro he; rw [← he]; exact hm
  · intro r hr
    rw [rowRank_eq _ _ hq]; exact lt_of_le_of_lt (Nat.mod_le _ _) hr

example : (List.range 7).map (fun r => (colRank 3 r, rowRank 3 r, sampleRange 7 3 r)) =
    [(0, 0, [0]), (0, 1, [1]), (0, 2, [2]), (1, 0, [0]), (1, 1, [1]), (1, 2, [2]), (2, 0, [0])] := by
  decide
example : (List.range 3).map (fun r => (colRank 7 r, sampleRange 3 7 r)) =
    [(0, [0, 1, 2]), (0, [3, 4]), (0, [5, 6])] := by decide

/-! ## C05 -/

/-- C05. For every assignment of processes to nodes and with or without shared memory:
`comm.rank == 0` is equivalent to `node.rank == images.rank == 0`; node and node rank
identify a process; every node has exactly one process with node rank 0; two such
processes are in the same `images` communicator, in which their rank identifies them. -/
theorem C05_shm_split (shared : Bool) (machine : Nat → Nat) :
    (∀ r, r = 0 ↔ nodeRank shared machine r = 0 ∧ imagesRank shared machine r = 0) ∧
    (∀ r s, nodeColor shared machine r = nodeColor shared machine s →
      nodeRank shared machine r = nodeRank shared machine s → r = s) ∧
    (∀ r, ∃! l, nodeColor shared machine l = nodeColor shared machine r ∧
      nodeRank shared machine l = 0) ∧
    (∀ n r, r < n → ∃ l, l < n ∧ nodeColor shared machine l = nodeColor shared machine r ∧
      nodeRank shared machine l = 0) ∧
    (∀ l m, nodeRank shared machine l = 0 → nodeRank shared machine m = 0 →
      imagesColor shared machine l = imagesColor shared machine m ∧
      (imagesRank shared machine l = imagesRank shared machine m → l = m)) := by
  refine ⟨?_, ?_, ?_, ?_, ?_⟩
  · intro r
    constructor
    · rintro rfl; exact ⟨nodeRank_zero _ _, imagesRank_zero _ _⟩
    · rintro ⟨h1, h2⟩; exact leader_zero shared machine r h1 h2
  · intro r s h1 h2; exact splitRank_inj _ h1 h2
  · intro r
    obtain ⟨l, _, h2, h3⟩ := exists_leader (nodeColor shared machine) r
    refine ⟨l, ⟨h2, h3⟩, ?_⟩
    rintro m ⟨h4, h5⟩
    exact splitRank_inj _ (h4.trans h2.symm) (h5.trans h3.symm)
  · intro n r hr
    obtain ⟨l, h1, h2, h3⟩ := exists_leader (nodeColor shared machine) r
    exact ⟨l, by omega, h2, h3⟩
  · intro l m hl hm
    have hc : imagesColor shared machine l = imagesColor shared machine m := by
      cases shared with
      | false => rfl
      | true => simp only [imagesColor, if_true, hl, hm]
    exact ⟨hc, fun h => splitRank_inj _ hc h⟩

/-- C05 (membership). With shared memory, processes are in the same `node` communicator if and only if
they run on the same machine, and in the same `images` communicator if and only if they have the same
node rank. Without shared memory, every process is alone in `node` and `images` is the whole
communicator with the original ranks. -/
theorem C05_membership (machine : Nat → Nat) :
    (∀ r s, (nodeColor true machine r = nodeColor true machine s ↔ machine r = machine s) ∧
      (imagesColor true machine r = imagesColor true machine s ↔
        nodeRank true machine r = nodeRank true machine s)) ∧
    (∀ r s, (nodeColor false machine r = nodeColor false machine s ↔ r = s) ∧
      imagesColor false machine r = imagesColor false machine s ∧
      nodeRank false machine r = 0 ∧ imagesRank false machine r = r) := by
  refine ⟨fun r s => ⟨Iff.rfl, Iff.rfl⟩, fun r s => ⟨Iff.rfl, rfl, ?_, ?_⟩⟩
  · rw [nodeRank, splitRank_eq_zero_iff]
    intro s hs
    simp only [nodeColor, Bool.false_eq_true, if_false]
    omega
  · simp [imagesRank, splitRank, imagesColor]

example : (List.range 8).map (fun r => (nodeRank true (· / 4) r, imagesRank true (· / 4) r)) =
    [(0, 0), (1, 0), (2, 0), (3, 0), (0, 1), (1, 1), (2, 1), (3, 1)] := by decide
example : (List.range 5).map (fun r => (nodeRank true (· % 2) r, imagesRank true (· % 2) r)) =
    [(0, 0), (0, 1), (1, 0), (1, 1), (2, 0)] := by decide

/-! ## C06 -/

/-- C06 (safety). Whatever the array contained before, whatever the node layout and
whatever the order in which the processes advance: every process that has left the
barrier reads the data of rank 0 from its (node's) array. -/
theorem C06_broadcast {α : Type} (n : Nat) (shared : Bool) (machine : Nat → Nat) (data : α)
    (mem : Nat → α) (sched : List Nat) (r : Nat) (hr : r < n)
    (hdone : (brun n shared machine data (binit mem) sched).pc r = 3) :
    (brun n shared machine data (binit mem) sched).mem (nodeColor shared machine r) = data := by
  have h := binv_run n shared machine data _ sched (binv_init n shared machine data mem)
  obtain ⟨l, h1, h2, h3⟩ := exists_leader (nodeColor shared machine) r
  rw [← h2]
  exact h.leader l (by omega) h3 (h.barrier r hr (by omega) l (by omega))

/-- C06 (no deadlock). In every reachable state in which some process is not done, some
process can make a step (its program counter increases). -/
theorem C06_no_deadlock {α : Type} (n : Nat) (shared : Bool) (machine : Nat → Nat) (data : α)
    (mem : Nat → α) (sched : List Nat)
    (hopen : ∃ r, r < n ∧ (brun n shared machine data (binit mem) sched).pc r ≠ 3) :
    ∃ s, s < n ∧
      (brun n shared machine data (binit mem) (sched ++ [s])).pc s =
        (brun n shared machine data (binit mem) sched).pc s + 1 := by
  have h := binv_run n shared machine data _ sched (binv_init n shared machine data mem)
  have hstep : ∀ s, brun n shared machine data (binit mem) (sched ++ [s]) =
      bstep n shared machine data (brun n shared machine data (binit mem) sched) s := by
    intro s; simp [brun, List.foldl_append]
  simp only [hstep]
  generalize brun n shared machine data (binit mem) sched = st at *
  obtain ⟨r, hr, hpc⟩ := hopen
  by_cases h0 : ∃ s, s < n ∧ st.pc s = 0
  · obtain ⟨s, hs, e⟩ := h0
    exact ⟨s, hs, by simp [bstep, hs, e, upd]⟩
  push Not at h0
  by_cases hz : st.pc 0 = 1
  · exact ⟨0, by omega, by simp [bstep, show 0 < n by omega, hz, upd, nodeRank_zero,
      imagesRank_zero]⟩
  by_cases h1 : ∃ s, s < n ∧ st.pc s = 1
  · obtain ⟨s, hs, e⟩ := h1
    have h2 : 2 ≤ st.pc 0 := by have := h0 0 (by omega); omega
    have hm := h.sent h2
    refine ⟨s, hs, ?_⟩
    cases hmsg : st.msg with
    | none => exact absurd hmsg hm
    | some v =>
      simp only [bstep, hs, if_true, e, hmsg]
      split
      · split <;> simp [upd]
      · simp [upd]
  push Not at h1
  have hall : ∀ t, t < n → 2 ≤ st.pc t := by
    intro t ht; have := h0 t ht; have := h1 t ht; omega
  have h2 : st.pc r = 2 := by have := hall r hr; have := h.le3 r; omega
  refine ⟨r, hr, ?_⟩
  have hb : barrierOpen n st = true := by
    simp only [barrierOpen, List.all_eq_true, List.mem_range, decide_eq_true_eq]; exact hall
  simp [bstep, hr, h2, hb, upd]

/-- Non-vacuity: with four processes on two nodes there is a schedule after which all
processes are done. -/
example : ((List.range 4).map
    (brun 4 true (· / 2) 7 (binit fun _ => 0) [3, 1, 2, 0, 3, 0, 2, 1, 0, 1, 2, 3]).pc) =
      [3, 3, 3, 3] := by decide

/-! ## C61 -/

/-- C61 is violated: two processes, one q point, shared memory on a single node. The
second process (`col.rank == 1`) can return from `elph.sample` before the first has
written the coupling. -/
theorem C61_sample_race_violated :
    ∃ sched : List Nat, (grun 2 1 ginit sched).returned 1 = true ∧
      (grun 2 1 ginit sched).written 0 = false :=
  ⟨[1], by decide⟩

/-- C61, part that holds: whatever the schedule, a process that is first in its column
(in particular every process if there are at most as many processes as q points) sees
the whole array when `elph.sample` returns. Missing for the full property: the
other processes, see `C61_sample_race_violated`. -/
theorem C61_sample_leaders_partial (n nq : Nat) (hn : 0 < n) (hq : 0 < nq) (sched : List Nat)
    (r : Nat) (hr : r < n) (hc : colRank nq r = 0)
    (hret : (grun n nq ginit sched).returned r = true) (iq : Nat) (hi : iq < nq) :
    (grun n nq ginit sched).written iq = true := by
  have h := ginv_run n nq ginit sched (ginv_init n nq)
  obtain ⟨o, ⟨h1, h2, h3⟩, _⟩ := (C04_owner n nq hn hq iq hi).1
  have h4 := h.ret r hr hc hret
  have h5 : rowRank nq o < rowSize nq n r := by
    rw [colRank_eq _ _ hq] at h2 hc
    have ho : o < nq := by
      by_contra hcon
      have := Nat.div_pos (Nat.le_of_not_lt hcon) hq
      omega
    rw [rowRank_eq _ _ hq, Nat.mod_eq_of_lt ho]
    exact lt_rowSize n nq r o hq h1 ho hc
  have h6 := h.sync r o hr h1 hc h2 (rowRank nq o) (by omega)
  exact h.wr o h1 h2 (by omega) iq h3

example : (grun 3 2 ginit [0, 0, 1, 1, 0, 0, 0, 1, 0, 0]).returned 0 = true ∧
    colRank 2 0 = 0 := by decide

end Verif.MPI
