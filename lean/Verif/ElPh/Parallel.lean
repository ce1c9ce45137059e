import Verif.MPI.Exchange
import Verif.ElPh.Props
import Verif.ElPh.Transform

/-!
# Property C163: coupling on several processes

`elph.Model.g` and `elph.sample` as executed by any number of processes in any order, where every process has its own cache.
-/

namespace Verif.ElPh.Par

open Verif.MPI (distribute colColor rowColor colRank rowRank boundsRange)
open Verif.MPI.Exch
open Verif.Diag (Mesh roundEven)

/-- Communicators: `comm`, `col` and `row` of `MPI.matrix(size)`, `I`. -/
inductive CM where
  | world
  | col (size j : Nat)
  | row (size i : Nat)
  | self (r : Nat)
  deriving DecidableEq

/-- `elphmod/MPI.py` 83-85, 119-127: members in the order of their ranks (`key=comm.rank`). -/
def members (n : Nat) : CM → List Nat
  | .world => List.range n
  | .col size j => (List.range n).filter fun r => colColor size r == j
  | .row size i => (List.range n).filter fun r => rowColor size r == i
  | .self r => if r < n then [r] else []

/-- Operations: `allreduce` of truth values, `Allreduce`, `Reduce`, `Bcast`, `Gatherv` (and `gather`), `Barrier` (and `Split`). -/
inductive Kind where
  | any
  | sum
  | reduce
  | bcast
  | gather
  | barrier
  deriving DecidableEq

/-- Values that are exchanged. -/
inductive Val (X O W : Type) (nk : Nat) where
  | unit
  | flag (b : Bool)
  | gq (f : X → Fin nk → O → O → ℂ)
  | g (f : X → O → O → ℂ)
  | nats (l : List Nat)
  | arr (l : List (List W))
  | row (l : List W)

section
variable {X O W : Type} {nk : Nat}

/-- Content of a buffer for truth values. -/
def Val.flagD : Val X O W nk → Bool
  | .flag b => b
  | _ => false

/-- Content of the buffer `self.gq`. -/
def Val.gqD : Val X O W nk → X → Fin nk → O → O → ℂ
  | .gq f => f
  | _ => 0

/-- Content of the buffer `g`. -/
def Val.gD : Val X O W nk → X → O → O → ℂ
  | .g f => f
  | _ => 0

/-- Content of a buffer for bounds. -/
def Val.natsD : Val X O W nk → List Nat
  | .nats l => l
  | _ => []

/-- Content of a buffer for the sampled coupling. -/
def Val.arrD : Val X O W nk → List (List W)
  | .arr l => l
  | _ => []

/-- Content of a buffer for the sampled coupling at one q point. -/
def Val.rowD : Val X O W nk → List W
  | .row l => l
  | _ => []

/-- What the process of rank `i` receives if the processes contribute `l`. Buffers of other processes than the root are not
touched by `Reduce` and `Gatherv`. -/
def deliver (κ : Kind) (l : List (Val X O W nk)) (i : Nat) : Val X O W nk :=
  match κ with
  | .any => .flag (l.any Val.flagD)
  | .sum => .gq (l.map Val.gqD).sum
  | .reduce => if i = 0 then .g (l.map Val.gD).sum else .unit
  | .bcast => l.headD .unit
  | .gather => if i = 0 then .arr (l.map Val.arrD).flatten else .unit
  | .barrier => .unit

/-- MPI with `n` processes; `wait`: which contributions processes wait for. -/
def sem (n : Nat) (wait : Kind → Nat → Nat → Bool) : Sem CM Kind (Val X O W nk) := ⟨members n, deliver, wait⟩

end

section
variable {X O W : Type} [DecidableEq O]

/-- Attributes `q` and `gq` on one process. -/
structure Cache (b : State X O) where
  q : Option (Fin 3 → ℝ)
  gq : X → Fin b.c.nk → O → O → ℂ

variable (b : State X O) (n : Nat)

/-- Programs for the model `b`, of which all processes have the same attributes other than the cache. -/
abbrev P (W R : Type) := Prog CM Kind (Val X O W b.c.nk) R

/-- `elphmod/MPI.py` 90-117: contribution to the broadcast of sizes or bounds. -/
def distV (size : Nat) (c : CM) (part : List Nat × List Nat → List Nat) (r : Nat) : Val X O W b.c.nk :=
  if (members n c).idxOf r = 0 then .nats (((distribute size (members n c).length).map part).getD []) else .unit

/-- `elphmod/MPI.py` 90-117 (`distribute` with `bounds=True`): continues with the bounds. -/
def distributeP {R : Type} (size : Nat) (c : CM) (r : Nat) (k : List Nat → P b W R) : P b W R :=
  .op c .bcast (distV b n size c Prod.fst r) fun _ => .op c .bcast (distV b n size c Prod.snd r) fun x => k x.natsD

/-- `elphmod/elph.py` 131-135, 157-161: sum over the lattice vectors of the process of rank `i`. -/
noncomputable def part {A : Type} [AddCommMonoid A] (bounds : List Nat) (i : Nat) {N : Nat} (f : Fin N → A) : A :=
  ∑ R : Fin N, if bounds.getD i 0 ≤ R ∧ R < bounds.getD (i + 1) 0 then f R else 0

/-- `elphmod/elph.py` 134-135: one summand. -/
noncomputable def termQ (q : Fin 3 → ℝ) (R : Fin b.c.ng) : X → Fin b.c.nk → O → O → ℂ :=
  fun x r α β => b.c.data R x r α β * Verif.Fourier.phase (b.c.Rg R) q

/-- `elphmod/elph.py` 144-148: the long-range part is added. -/
noncomputable def addLr (q : Fin 3 → ℝ) (t : X → Fin b.c.nk → O → O → ℂ) : X → Fin b.c.nk → O → O → ℂ :=
  fun x r α β => t x r α β + match b.lr with
    | none => 0
    | some f => if b.Rk0 = some r ∧ α = β then f q x else 0

/-- `elphmod/elph.py` 160-161: one summand. -/
noncomputable def termK (k : Fin 3 → ℝ) (gq : X → Fin b.c.nk → O → O → ℂ) (R : Fin b.c.nk) : X → O → O → ℂ :=
  fun x α β => gq x R α β * Verif.Fourier.phase (b.c.Rk R) k

open Classical in
/-- `elphmod/elph.py` 128: does this process need an update? -/
noncomputable def stale (q : Fin 3 → ℝ) (s : Cache b) : Bool := decide (s.q = none ∨ s.q ≠ some q)

/-- `elphmod/elph.py` 157-194: sum over electronic lattice vectors. `post`: transformation to bands (lines 175-191). -/
noncomputable def gTail (c : CM) (q k : Fin 3 → ℝ) (post : (X → O → O → ℂ) → X → O → O → ℂ) (broadcast : Bool) (r : Nat) (s : Cache b) :
    P b W (Cache b × Option (X → O → O → ℂ)) :=
  distributeP b n b.c.nk c r fun bounds =>
    .op c .reduce (.g (part bounds ((members n c).idxOf r) (termK b k s.gq))) fun x =>
      if broadcast then
        .op c .bcast (if (members n c).idxOf r = 0 then .g (post x.gD) else .unit) fun y => .ret (s, some y.gD)
      else .ret (s, if (members n c).idxOf r = 0 then some (post x.gD) else none)

/-- `elphmod/elph.py` 90-197 (`g`) as executed by process `r` with the cache `s` and the argument `comm=c`. -/
noncomputable def gProg (c : CM) (q k : Fin 3 → ℝ) (post : (X → O → O → ℂ) → X → O → O → ℂ) (broadcast : Bool) (r : Nat) (s : Cache b) :
    P b W (Cache b × Option (X → O → O → ℂ)) :=
  .op c .any (.flag (stale b q s)) fun f =>
    if f.flagD then
      distributeP b n b.c.ng c r fun bounds =>
        .op c .sum (.gq (part bounds ((members n c).idxOf r) (termQ b q))) fun t =>
          gTail b n c q k post broadcast r ⟨some q, addLr b q t.gqD⟩
    else gTail b n c q k post broadcast r s

/-- `elphmod/elph.py` 884-907: loop over q and k points of process `r`. Each item is a pair of wave vectors with the transformation of the result. -/
noncomputable def loopProg (c : CM) (r : Nat) :
    List ((Fin 3 → ℝ) × (Fin 3 → ℝ) × ((X → O → O → ℂ) → W)) → Cache b → P b W (Cache b × List W)
  | [], s => .ret (s, [])
  | (q, k, rot) :: l, s => (gProg b n c q k id false r s).bind fun x => (loopProg c r l x.1).bind fun y =>
      .ret (y.1, ((x.2.map rot).toList) ++ y.2)

/-- `elphmod/elph.py` 884: loop over q points, giving the rows of `my_g`. -/
noncomputable def rowsProg (c : CM) (r : Nat) :
    List (List ((Fin 3 → ℝ) × (Fin 3 → ℝ) × ((X → O → O → ℂ) → W))) → Cache b → P b W (Cache b × List (List W))
  | [], s => .ret (s, [])
  | i :: is, s => (loopProg b n c r i s).bind fun x => (rowsProg c r is x.1).bind fun y => .ret (y.1, x.2 :: y.2)

/-- `elphmod/elph.py` 940-942: one broadcast per q point; `g` are the rows of the array on this process. -/
def bcastRows {R : Type} (c : CM) (g : List (List W)) : List Nat → (List (List W) → P b W R) → P b W R
  | [], k => k []
  | iq :: is, k => .op c .bcast (.row (g.getD iq [])) fun x => bcastRows c g is fun xs => k (x.rowD :: xs)

/-- Items of the loops: q point number `iq` and k points. -/
def items {I : Type} (qs : List (Fin 3 → ℝ)) (ks : List I) (kvec : I → Fin 3 → ℝ) (rot : Nat → I → (X → O → O → ℂ) → W) (iq : Nat) :
    List ((Fin 3 → ℝ) × (Fin 3 → ℝ) × ((X → O → O → ℂ) → W)) :=
  ks.map fun κ => (qs.getD iq 0, kvec κ, rot iq κ)

/-- `elphmod/elph.py` 935-946: end of `sample`, with `shared_memory=False`. `junk`: rows of the new array on other processes than the first. -/
def sampleEnd (nq : Nat) (junk : List (List W)) (broadcast : Bool) (r : Nat) (s : Cache b) (my : List (List W)) :
    P b W (Cache b × Option (List (List W))) :=
  let rest := fun g : List (List W) =>
    .op (.col nq (colColor nq r)) .barrier .unit fun _ =>
      if broadcast then bcastRows b .world (if r = 0 then g else junk) (List.range nq) fun g => .op (.self r) .barrier .unit fun _ => .ret (s, some g)
      else if r = 0 then bcastRows b (.self r) g (List.range nq) fun g => .op .world .barrier .unit fun _ => .ret (s, some g)
      else .op .world .barrier .unit fun _ => .ret (s, none)
  if colRank nq r = 0 then
    .op (.row nq (rowColor nq r)) .gather .unit fun _ => .op (.row nq (rowColor nq r)) .gather (.arr my) fun x => rest x.arrD
  else rest []

/-- `elphmod/elph.py` 848-946 (`sample` with `shared_memory=False`) as executed by process `r`. `rot`: transformation to bands (lines 896-907) for the
given q and k point. The two calls of `Split` in `MPI.matrix` (`elphmod/MPI.py` 124-125) are barriers here. -/
noncomputable def sampleProg {I : Type} (qs : List (Fin 3 → ℝ)) (ks : List I) (kvec : I → Fin 3 → ℝ) (rot : Nat → I → (X → O → O → ℂ) → W)
    (junk : List (List W)) (broadcast : Bool) (r : Nat) (s : Cache b) : P b W (Cache b × Option (List (List W))) :=
  distributeP b n qs.length .world r fun bounds => distributeP b n qs.length .world r fun _ =>
    .op .world .barrier .unit fun _ => .op .world .barrier .unit fun _ =>
      (gProg b n .world 0 0 id true r s).bind fun x =>
        (rowsProg b n (.col qs.length (colColor qs.length r)) r
          ((boundsRange bounds (rowRank qs.length r)).map (items qs ks kvec rot)) x.1).bind fun y =>
            sampleEnd b qs.length junk broadcast r y.1 y.2

end

/-! ## Lemmas -/

theorem members_nodup (n : Nat) (c : CM) : (members n c).Nodup := by
  cases c with
  | world => exact List.nodup_range
  | col => exact List.nodup_range.filter _
  | row => exact List.nodup_range.filter _
  | self r =>
    show (if r < n then [r] else []).Nodup
    split_ifs <;> simp

theorem members_lt (n : Nat) (c : CM) (r : Nat) (h : r ∈ members n c) : r < n := by
  cases c with
  | world => exact List.mem_range.1 h
  | col => exact List.mem_range.1 (List.mem_filter.1 h).1
  | row => exact List.mem_range.1 (List.mem_filter.1 h).1
  | self q =>
    change r ∈ (if q < n then [q] else []) at h
    split_ifs at h with hq
    · rw [List.mem_singleton.1 h]
      exact hq
    · cases h

theorem map_idxOf {A : Type} (l : List Nat) (hl : l.Nodup) (F : Nat → A) : (l.map fun r => F (l.idxOf r)) = (List.range l.length).map F := by
  apply List.ext_getElem
  · simp
  · intro i h1 h2
    simp only [List.getElem_map, List.getElem_range]
    rw [hl.idxOf_getElem]

theorem idxOf_filter (n r : Nat) (hr : r < n) (p : Nat → Bool) (hp : p r = true) :
    ((List.range n).filter p).idxOf r = ((List.range r).filter p).length := by
  obtain ⟨m, rfl⟩ : ∃ m, n = r + (m + 1) := ⟨n - r - 1, by omega⟩
  rw [List.range_add, List.filter_append, List.idxOf_append_of_notMem]
  · rw [List.range_succ_eq_map, List.map_cons, List.filter_cons_of_pos (by simpa using hp)]
    simp
  · intro h
    have := List.mem_range.1 (List.mem_filter.1 h).1
    omega

/-- Sums over the parts of all processes. -/
theorem sum_parts {A : Type} [AddCommMonoid A] (m N : Nat) (hm : 0 < m) (f : Fin N → A) :
    ((List.range m).map fun i => part (((distribute N m).map Prod.snd).getD []) i f).sum = ∑ R, f R := by
  obtain ⟨sizes, bounds, h1, h2⟩ := (Verif.MPI.C01_distribute N m).2 hm
  simp only [h1, Option.map_some, Option.getD_some, part]
  show ∑ i ∈ Finset.range m, ∑ R : Fin N, (if bounds.getD i 0 ≤ R ∧ R < bounds.getD (i + 1) 0 then f R else 0) = _
  rw [Finset.sum_comm]
  refine Finset.sum_congr rfl fun R _ => ?_
  obtain ⟨i, ⟨hi, hle⟩, huniq⟩ := h2.owner R R.2
  rw [Finset.sum_eq_single i]
  · rw [if_pos hle]
  · intro j hj hne
    rw [if_neg]
    intro h
    exact hne (huniq j ⟨Finset.mem_range.1 hj, h⟩)
  · intro h
    exact absurd (Finset.mem_range.2 hi) h

section
variable {X O W : Type} [DecidableEq O] {b : State X O} {n : Nat} {wait : Kind → Nat → Nat → Bool}

/-- Broadcast from the first process of a communicator. -/
theorem deliver_bcast {nk : Nat} (c : CM) (r : Nat) (hr : r ∈ members n c) (v : Nat → Val X O W nk) (x : Val X O W nk)
    (hv : ∀ r, (members n c).idxOf r = 0 → v r = x) (i : Nat) : deliver .bcast ((members n c).map v) i = x := by
  cases h : members n c with
  | nil =>
    rw [h] at hr
    cases hr
  | cons q l =>
    show v q = x
    apply hv
    rw [h]
    simp

/-- Bounds as obtained by all processes of a communicator. -/
def bnd (n : Nat) (size : Nat) (c : CM) : List Nat := ((distribute size (members n c).length).map Prod.snd).getD []

/-- Communication in `distribute`. -/
def distT (b : State X O) (W : Type) (n size : Nat) (c : CM) : List (Entry CM Kind (Val X O W b.c.nk)) :=
  [(c, .bcast, distV b n size c Prod.fst), (c, .bcast, distV b n size c Prod.snd)]

theorem follows_distribute {R : Type} (size : Nat) (c : CM) (r : Nat) (hr : r ∈ members n c) (k : List Nat → P b W R)
    {T : List (Entry CM Kind (Val X O W b.c.nk))} {a : R} {l : Nat} (h : Follows (sem n wait) r (k (bnd n size c)) T a l) :
    Follows (sem n wait) r (distributeP b n size c r k) (distT b W n size c ++ T) a (l + 2) := by
  refine Follows.op hr rfl (Follows.op hr rfl ?_)
  show Follows (sem n wait) r (k (deliver .bcast ((members n c).map (distV b n size c Prod.snd : Nat → Val X O W b.c.nk)) ((members n c).idxOf r)).natsD) T a l
  rw [deliver_bcast c r hr _ (.nats (bnd n size c)) (fun q hq => by simp only [distV, hq, if_true]; rfl)]
  exact h

theorem calcGq_eq (q : Fin 3 → ℝ) : addLr b q (∑ R, termQ b q R) = calcGq b q := by
  funext x r α β
  simp only [addLr, calcGq, termQ, Finset.sum_apply]
  rfl

theorem sum_termK (ho : Origin b) (q k : Fin 3 → ℝ) : ∑ R, termK b k (calcGq b q) R = total b q k := by
  funext x α β
  simp only [termK, Finset.sum_apply]
  exact sum_calcGq b ho q k x α β

/-- Cache with the right content. -/
def Cache.Good (s : Cache b) : Prop := ∀ q, s.q = some q → s.gq = calcGq b q

theorem stale_false (q : Fin 3 → ℝ) (s : Cache b) (hs : s.Good) (h : stale b q s = false) : s = ⟨some q, calcGq b q⟩ := by
  unfold stale at h
  rw [decide_eq_false_iff_not] at h
  push Not at h
  obtain ⟨sq, sg⟩ := s
  have h2 : sq = some q := h.2
  subst h2
  have := hs q rfl
  simp only at this
  rw [this]

theorem members_length_pos (c : CM) (r : Nat) (hr : r ∈ members n c) : 0 < (members n c).length := List.length_pos_of_mem hr

theorem follows_tail (ho : Origin b) (c : CM) (q k : Fin 3 → ℝ) (post : (X → O → O → ℂ) → X → O → O → ℂ) (bc : Bool) :
    ∃ T l, (∀ e ∈ T, e.1 = c) ∧ ∀ r ∈ members n c, Follows (sem n wait) r (gTail b n c q k post bc r ⟨some q, calcGq b q⟩ : P b W _) T
      (⟨some q, calcGq b q⟩, if bc = true ∨ (members n c).idxOf r = 0 then some (post (total b q k)) else none) l := by
  have hred : ∀ r ∈ members n c, (deliver .reduce ((members n c).map fun r =>
      (.g (part (bnd n b.c.nk c) ((members n c).idxOf r) (termK b k (calcGq b q))) : Val X O W b.c.nk)) 0) = .g (total b q k) := by
    intro r hr
    simp only [deliver, if_true, List.map_map, Function.comp_def, Val.gD]
    rw [map_idxOf _ (members_nodup n c) fun i => part (bnd n b.c.nk c) i (termK b k (calcGq b q)), bnd,
      sum_parts _ _ (members_length_pos c r hr), sum_termK ho]
  cases bc with
  | true =>
    refine ⟨distT b W n b.c.nk c ++ [(c, .reduce, fun r => .g (part (bnd n b.c.nk c) ((members n c).idxOf r) (termK b k (calcGq b q)))),
      (c, .bcast, fun r => if (members n c).idxOf r = 0 then .g (post (total b q k)) else .unit)], 4, ?_, ?_⟩
    · simp [distT]
    · intro r hr
      refine follows_distribute _ c r hr _ (Follows.op hr rfl (Follows.op hr ?_ ?_))
      · show (if (members n c).idxOf r = 0 then _ else _) = (if (members n c).idxOf r = 0 then _ else _)
        by_cases h0 : (members n c).idxOf r = 0
        · simp only [h0, if_true]
          have h := hred r hr
          simp only [sem, h0]
          rw [h]
          rfl
        · simp only [h0, if_false]
      · have := deliver_bcast c r hr (fun r => if (members n c).idxOf r = 0 then .g (post (total b q k)) else (.unit : Val X O W b.c.nk))
          (.g (post (total b q k))) (fun q hq => by simp only [hq, if_true]) ((members n c).idxOf r)
        simp only [sem]
        rw [this]
        simp only [true_or, if_true]
        exact Follows.ret _
  | false =>
    refine ⟨distT b W n b.c.nk c ++ [(c, .reduce, fun r => .g (part (bnd n b.c.nk c) ((members n c).idxOf r) (termK b k (calcGq b q))))], 3, ?_, ?_⟩
    · simp [distT]
    · intro r hr
      refine follows_distribute _ c r hr _ (Follows.op hr rfl ?_)
      simp only [Bool.false_eq_true, if_false, false_or, sem]
      by_cases h0 : (members n c).idxOf r = 0
      · simp only [h0, if_true]
        rw [hred r hr]
        exact Follows.ret _
      · simp only [h0, if_false]
        exact Follows.ret _

/-- The coupling at one point, calculated by the processes of a communicator. -/
theorem follows_g (ho : Origin b) (c : CM) (q k : Fin 3 → ℝ) (post : (X → O → O → ℂ) → X → O → O → ℂ) (bc : Bool) (s : Nat → Cache b)
    (hs : ∀ r ∈ members n c, (s r).Good) :
    ∃ T l, (∀ e ∈ T, e.1 = c) ∧ ∀ r ∈ members n c, Follows (sem n wait) r (gProg b n c q k post bc r (s r) : P b W _) T
      (⟨some q, calcGq b q⟩, if bc = true ∨ (members n c).idxOf r = 0 then some (post (total b q k)) else none) l := by
  obtain ⟨T, l, hT, hF⟩ := follows_tail (W := W) (wait := wait) (n := n) ho c q k post bc
  by_cases hany : ((members n c).map fun r => (.flag (stale b q (s r)) : Val X O W b.c.nk)).any Val.flagD = true
  · refine ⟨(c, .any, fun r => .flag (stale b q (s r))) :: (distT b W n b.c.ng c ++
      (c, .sum, fun r => .gq (part (bnd n b.c.ng c) ((members n c).idxOf r) (termQ b q))) :: T), l + 1 + 2 + 1, ?_, ?_⟩
    · intro e he
      simp only [distT, List.cons_append, List.nil_append, List.mem_cons] at he
      rcases he with rfl | rfl | rfl | rfl | he
      · rfl
      · rfl
      · rfl
      · rfl
      · exact hT e he
    · intro r hr
      refine Follows.op hr rfl ?_
      simp only [sem, deliver, hany]
      simp only [Val.flagD, if_true]
      refine follows_distribute _ c r hr _ (Follows.op hr rfl ?_)
      have : (deliver .sum ((members n c).map fun r => (.gq (part (bnd n b.c.ng c) ((members n c).idxOf r) (termQ b q)) : Val X O W b.c.nk))
          ((members n c).idxOf r)) = .gq (∑ R, termQ b q R) := by
        simp only [deliver, List.map_map, Function.comp_def, Val.gqD]
        rw [map_idxOf _ (members_nodup n c) fun i => part (bnd n b.c.ng c) i (termQ b q), bnd, sum_parts _ _ (members_length_pos c r hr)]
      simp only [sem]
      rw [this]
      simp only [Val.gqD]
      rw [calcGq_eq]
      exact hF r hr
  · refine ⟨(c, .any, fun r => .flag (stale b q (s r))) :: T, l + 1, ?_, ?_⟩
    · intro e he
      rcases List.mem_cons.1 he with rfl | he
      · rfl
      · exact hT e he
    · intro r hr
      refine Follows.op hr rfl ?_
      simp only [sem, deliver]
      have h1 : stale b q (s r) = false := by
        by_contra h
        apply hany
        rw [List.any_eq_true]
        exact ⟨_, List.mem_map.2 ⟨r, hr, rfl⟩, by simpa [Val.flagD] using h⟩
      simp only [hany, Val.flagD, Bool.false_eq_true, if_false]
      rw [stale_false q (s r) (hs r hr) h1]
      exact hF r hr

theorem good_new (q : Fin 3 → ℝ) : (⟨some q, calcGq b q⟩ : Cache b).Good := by
  intro q' h
  simp only [Option.some.injEq] at h
  rw [h]

/-- Expected result of the loop. -/
noncomputable def looped (b : State X O) (l : List ((Fin 3 → ℝ) × (Fin 3 → ℝ) × ((X → O → O → ℂ) → W))) : List W :=
  l.map fun i => i.2.2 (total b i.1 i.2.1)

theorem follows_loop (ho : Origin b) (c : CM) (l : List ((Fin 3 → ℝ) × (Fin 3 → ℝ) × ((X → O → O → ℂ) → W))) (s : Nat → Cache b)
    (hs : ∀ r ∈ members n c, (s r).Good) :
    ∃ T L, ∃ s' : Nat → Cache b, (∀ e ∈ T, e.1 = c) ∧ (∀ r ∈ members n c, (s' r).Good) ∧
      ∀ r ∈ members n c, Follows (sem n wait) r (loopProg b n c r l (s r)) T
        (s' r, if (members n c).idxOf r = 0 then looped b l else []) L := by
  induction l generalizing s with
  | nil => exact ⟨[], 0, s, by simp, hs, fun r _ => by simpa [looped, loopProg] using Follows.ret _⟩
  | cons i l ih =>
    obtain ⟨q, k, rot⟩ := i
    obtain ⟨T1, L1, h1, h2⟩ := follows_g (W := W) (wait := wait) (n := n) ho c q k id false s hs
    obtain ⟨T2, L2, s', h3, h4, h5⟩ := ih (fun _ => ⟨some q, calcGq b q⟩) fun _ _ => good_new q
    refine ⟨T1 ++ (T2 ++ []), L1 + (L2 + 0), s', ?_, h4, fun r hr => ?_⟩
    · intro e he
      simp only [List.append_nil, List.mem_append] at he
      exact he.elim (h1 e) (h3 e)
    · refine (h2 r hr).bind ((h5 r hr).bind ?_)
      by_cases h0 : (members n c).idxOf r = 0
      · simp only [h0, if_true, or_true, looped, List.map_cons, Option.map_some, Option.toList_some, List.singleton_append, id]
        exact Follows.ret _
      · simp only [h0, if_false, Bool.false_eq_true, or_self, Option.map_none, Option.toList_none, List.nil_append]
        exact Follows.ret _

theorem follows_rows (ho : Origin b) (c : CM) (is : List (List ((Fin 3 → ℝ) × (Fin 3 → ℝ) × ((X → O → O → ℂ) → W)))) (s : Nat → Cache b)
    (hs : ∀ r ∈ members n c, (s r).Good) :
    ∃ T L, ∃ s' : Nat → Cache b, (∀ e ∈ T, e.1 = c) ∧ (∀ r ∈ members n c, (s' r).Good) ∧
      ∀ r ∈ members n c, Follows (sem n wait) r (rowsProg b n c r is (s r)) T
        (s' r, is.map fun l => if (members n c).idxOf r = 0 then looped b l else []) L := by
  induction is generalizing s with
  | nil => exact ⟨[], 0, s, by simp, hs, fun r _ => Follows.ret _⟩
  | cons i is ih =>
    obtain ⟨T1, L1, s1, h1, h1', h2⟩ := follows_loop (wait := wait) ho c i s hs
    obtain ⟨T2, L2, s', h3, h4, h5⟩ := ih s1 h1'
    refine ⟨T1 ++ (T2 ++ []), L1 + (L2 + 0), s', ?_, h4, fun r hr => ?_⟩
    · intro e he
      simp only [List.append_nil, List.mem_append] at he
      exact he.elim (h1 e) (h3 e)
    · exact (h2 r hr).bind ((h5 r hr).bind (Follows.ret _))

end

section
variable {C K V R : Type}

theorem skips {M : Sem C K V} {r : Nat} {p : Prog C K V R} {S T : List (Entry C K V)} {a : R} {l : Nat} (hS : ∀ e ∈ S, r ∉ M.mem e.1)
    (h : Follows M r p T a l) : Follows M r p (S ++ T) a l := by
  induction S with
  | nil => exact h
  | cons e S ih => exact Follows.skip (hS e (by simp)) (ih fun e he => hS e (by simp [he]))

theorem insert {M : Sem C K V} {r : Nat} {p : Prog C K V R} {A S T : List (Entry C K V)} {a : R} {l : Nat} (hS : ∀ e ∈ S, r ∉ M.mem e.1)
    (h : Follows M r p (A ++ T) a l) : Follows M r p (A ++ (S ++ T)) a l := by
  induction A generalizing p l with
  | nil => exact skips (S := S) (T := T) hS h
  | cons e A ih =>
    cases h with
    | skip hm h => exact Follows.skip hm (ih h)
    | op hm hx h => exact Follows.op hm hx (ih h)

/-- A process takes part in the operations on one of several communicators. -/
theorem among {M : Sem C K V} {r : Nat} {p : Prog C K V R} (js : List Nat) (hnd : js.Nodup) (j0 : Nat) (hj : j0 ∈ js) (F : Nat → List (Entry C K V))
    (hF : ∀ j ∈ js, j ≠ j0 → ∀ e ∈ F j, r ∉ M.mem e.1) {T : List (Entry C K V)} {a : R} {l : Nat} (h : Follows M r p (F j0 ++ T) a l) :
    Follows M r p (js.flatMap F ++ T) a l := by
  induction js with
  | nil => cases hj
  | cons j js ih =>
    rw [List.flatMap_cons, List.append_assoc]
    by_cases e : j = j0
    · subst e
      refine insert ?_ h
      intro e he
      obtain ⟨i, hi, he⟩ := List.mem_flatMap.1 he
      refine hF i (by simp [hi]) ?_ e he
      rintro rfl
      exact (List.nodup_cons.1 hnd).1 hi
    · refine skips (hF j (by simp) e) (ih (List.nodup_cons.1 hnd).2 ?_ fun i hi => hF i (by simp [hi]))
      rcases List.mem_cons.1 hj with rfl | hj
      · exact absurd rfl e
      · exact hj

end

theorem flatMap_filter {A : Type} (l : List Nat) (p : Nat → Bool) (F : Nat → List A) (h : ∀ x ∈ l, p x = false → F x = []) :
    (l.filter p).flatMap F = l.flatMap F := by
  induction l with
  | nil => rfl
  | cons x l ih =>
    have := ih fun x hx => h x (by simp [hx])
    cases hp : p x with
    | true => rw [List.filter_cons_of_pos hp, List.flatMap_cons, List.flatMap_cons, this]
    | false => rw [List.filter_cons_of_neg (by simp [hp]), List.flatMap_cons, this, h x (by simp) hp, List.nil_append]

/-- The processes of the first row together handle all q points. -/
theorem row_ranges (n nq : Nat) (hn : 0 < n) (hq : 0 < nq) :
    (members n (.row nq 0)).flatMap (fun r => boundsRange (bnd n nq .world) (rowRank nq r)) = List.range nq := by
  obtain ⟨sizes, bounds, h1, h2, h3⟩ := Verif.MPI.C02_bounds_ranges nq n hn
  have hb : bnd n nq .world = bounds := by simp [bnd, members, h1]
  rw [hb]
  have hrow : ∀ r, (rowColor nq r == 0) = true ↔ r < nq := by
    intro r
    simp only [rowColor, beq_iff_eq, Nat.div_eq_zero_iff]
    omega
  have e1 : (members n (.row nq 0)).flatMap (fun r => boundsRange bounds (rowRank nq r)) = (members n (.row nq 0)).flatMap (boundsRange bounds) := by
    rw [List.flatMap_def, List.flatMap_def]
    congr 1
    apply List.map_congr_left
    intro r hr
    have := (hrow r).1 (List.mem_filter.1 hr).2
    rw [Verif.MPI.rowRank_eq nq r hq, Nat.mod_eq_of_lt this]
  rw [e1, ← h2]
  apply flatMap_filter
  intro r hr hp
  have hr := List.mem_range.1 hr
  have hge : nq ≤ r := by
    by_contra h
    rw [(hrow r).2 (by omega)] at hp
    cases hp
  apply List.eq_nil_of_length_eq_zero
  rw [h3 r hr]
  have : sizes = Verif.MPI.distSizes nq n := by
    simp [distribute, show n ≠ 0 by omega] at h1
    exact h1.1.symm
  rw [this, Verif.MPI.getD_distSizes _ _ _ hr, Nat.div_eq_of_lt (by omega), Nat.mod_eq_of_lt (by omega : nq < n)]
  simp
  omega

theorem idxOf_world (n r : Nat) (hr : r < n) : (members n .world).idxOf r = r := by
  have := idxOf_filter n r hr (fun _ => true) rfl
  simpa [members] using this

theorem idxOf_col (n nq r : Nat) (hr : r < n) : (members n (.col nq (colColor nq r))).idxOf r = colRank nq r :=
  idxOf_filter n r hr (fun s => colColor nq s == colColor nq r) (by simp)

theorem idxOf_row (n nq r : Nat) (hr : r < n) : (members n (.row nq (rowColor nq r))).idxOf r = rowRank nq r :=
  idxOf_filter n r hr (fun s => rowColor nq s == rowColor nq r) (by simp)

theorem map_getD {A : Type} (g : List A) (d : A) (m : Nat) (h : g.length = m) : (List.range m).map (fun i => g.getD i d) = g := by
  apply List.ext_getElem
  · simp [h]
  · intro i h1 h2
    simp only [List.getElem_map, List.getElem_range]
    rw [List.getD_eq_getElem _ _ h2]

section
variable {X O W : Type} [DecidableEq O] {b : State X O} {n : Nat} {wait : Kind → Nat → Nat → Bool}

/-- Broadcast of all rows. -/
theorem follows_bcastRows {R : Type} (c : CM) (r : Nat) (hr : r ∈ members n c) (own : Nat → List (List W)) (g : List (List W))
    (hg : ∀ q, (members n c).idxOf q = 0 → own q = g) (is : List Nat) (k : List (List W) → P b W R) {T : List (Entry CM Kind (Val X O W b.c.nk))} {a : R} {l : Nat}
    (h : Follows (sem n wait) r (k (is.map fun i => g.getD i [])) T a l) :
    Follows (sem n wait) r (bcastRows b c (own r) is k) (is.map (fun i => (c, .bcast, fun q => .row ((own q).getD i []))) ++ T) a (l + is.length) := by
  induction is generalizing k with
  | nil => exact h
  | cons i is ih =>
    refine Follows.op hr rfl ?_
    have : deliver .bcast ((members n c).map fun q => (.row ((own q).getD i []) : Val X O W b.c.nk)) ((members n c).idxOf r) = .row (g.getD i []) :=
      deliver_bcast c r hr _ _ (fun q hq => by rw [hg q hq]) _
    simp only [sem]
    rw [this]
    exact ih (fun xs => k (g.getD i [] :: xs)) h

/-- End of `sample`: rows `my r` of the processes of the first row add up to `g`. -/
theorem follows_end (nq : Nat) (hn : 0 < n) (hq : 0 < nq) (junk : Nat → List (List W)) (bc : Bool) (s : Nat → Cache b) (my : Nat → List (List W))
    (g : List (List W)) (hlen : g.length = nq) (hg : (members n (.row nq 0)).flatMap my = g) :
    ∃ T, ∃ L : Nat → Nat, ∀ r, r < n → Follows (sem n wait) r (sampleEnd b nq (junk r) bc r (s r) (my r)) T
      (s r, if bc = true ∨ r = 0 then some g else none) (L r) := by
  have hcol0 : ∀ r, colRank nq r = 0 ↔ rowColor nq r = 0 := by
    intro r
    rw [Verif.MPI.colRank_eq nq r hq]
    rfl
  -- after the processes of the first row have been gathered
  have hrest : ∃ T, ∃ L : Nat → Nat, ∀ r, r < n → ∀ x, (r = 0 → x = g) →
      Follows (sem n wait) r (.op (.col nq (colColor nq r)) .barrier .unit fun _ =>
        if bc then bcastRows b .world (if r = 0 then x else junk r) (List.range nq) fun g => .op (.self r) .barrier .unit fun _ => .ret (s r, some g)
        else if r = 0 then bcastRows b (.self r) x (List.range nq) fun g => .op .world .barrier .unit fun _ => .ret (s r, some g)
        else .op .world .barrier .unit fun _ => .ret (s r, none) : P b W _)
      T (s r, if bc = true ∨ r = 0 then some g else none) (L r) := by
    have hcolmem : ∀ r, r < n → r ∈ members n (.col nq (colColor nq r)) := by
      intro r hr
      simp [members, hr]
    have hcolnot : ∀ r j, j ≠ colColor nq r → r ∉ members n (.col nq j) := by
      intro r j hj h
      have := (List.mem_filter.1 h).2
      simp only [beq_iff_eq] at this
      exact hj this.symm
    have hworld : ∀ r, r < n → r ∈ members n .world := fun r hr => List.mem_range.2 hr
    have hself : ∀ r, r < n → r ∈ members n (.self r) := by
      intro r hr
      simp [members, hr]
    have hselfnot : ∀ r q, q ≠ r → r ∉ members n (.self q) := by
      intro r q hne h
      change r ∈ (if q < n then [q] else []) at h
      split_ifs at h
      · exact hne (List.mem_singleton.1 h).symm
      · cases h
    have hcolT : ∀ r, r < n → ∀ (k : Val X O W b.c.nk → P b W (Cache b × Option (List (List W)))) (T : List (Entry CM Kind (Val X O W b.c.nk))) a l,
        Follows (sem n wait) r (k .unit) T a l → Follows (sem n wait) r (.op (.col nq (colColor nq r)) .barrier .unit k)
          ((List.range nq).flatMap (fun j => [(.col nq j, .barrier, fun _ => .unit)]) ++ T) a (l + 1) := by
      intro r hr k T a l h
      refine among _ List.nodup_range (colColor nq r) (List.mem_range.2 (Nat.mod_lt _ hq)) _ ?_ ?_
      · intro j _ hj e he
        rw [List.mem_singleton] at he
        subst he
        exact hcolnot r j hj
      · exact Follows.op (hcolmem r hr) rfl h
    have hmap : (List.range nq).map (fun i => g.getD i []) = g := map_getD g [] nq hlen
    cases bc with
    | true =>
      refine ⟨(List.range nq).flatMap (fun j => [(.col nq j, .barrier, fun _ => .unit)]) ++
        ((List.range nq).map (fun i => (.world, .bcast, fun q => .row ((if q = 0 then g else junk q).getD i []))) ++
          ((List.range n).flatMap (fun q => [(.self q, .barrier, fun _ => .unit)]) ++ [])), fun r => 0 + 1 + (List.range nq).length + 1, fun r hr x hx => ?_⟩
      refine hcolT r hr _ _ _ _ ?_
      simp only [if_true, true_or]
      have e : (if r = 0 then x else junk r) = (fun q => if q = 0 then g else junk q) r := by
        by_cases h0 : r = 0
        · simp [h0, hx h0]
        · simp [h0]
      rw [e]
      refine follows_bcastRows .world r (hworld r hr) (fun q => if q = 0 then g else junk q) g ?_ (List.range nq) _ ?_
      · intro q hq0
        have : q = 0 := by
          by_cases hqn : q < n
          · rw [idxOf_world n q hqn] at hq0
            exact hq0
          · exfalso
            have h1 : (members n .world).idxOf q = (members n .world).length := List.idxOf_eq_length (fun h => hqn (List.mem_range.1 h))
            rw [h1] at hq0
            simp [members] at hq0
            omega
        simp [this]
      · rw [hmap]
        refine among _ List.nodup_range r (List.mem_range.2 hr) _ ?_ ?_
        · intro j _ hj e he
          rw [List.mem_singleton] at he
          subst he
          exact hselfnot r j hj
        · exact Follows.op (hself r hr) rfl (Follows.ret _)
    | false =>
      refine ⟨(List.range nq).flatMap (fun j => [(.col nq j, .barrier, fun _ => .unit)]) ++
        ((List.range nq).map (fun i => (.self 0, .bcast, fun _ => .row (g.getD i []))) ++ [(.world, .barrier, fun _ => .unit)]),
        fun r => (if r = 0 then 0 + 1 + (List.range nq).length else 0 + 1) + 1, fun r hr x hx => ?_⟩
      refine hcolT r hr _ _ _ _ ?_
      by_cases h0 : r = 0
      · subst h0
        simp only [Bool.false_eq_true, if_false, if_true, or_true, hx rfl]
        refine follows_bcastRows (.self 0) 0 (hself 0 hr) (fun _ => g) g (fun _ _ => rfl) (List.range nq) _ ?_
        rw [hmap]
        exact Follows.op (hworld 0 hr) rfl (Follows.ret _)
      · simp only [Bool.false_eq_true, if_false, h0, or_self]
        refine skips ?_ (Follows.op (hworld r hr) rfl (Follows.ret _))
        intro e he
        obtain ⟨i, -, rfl⟩ := List.mem_map.1 he
        exact hselfnot r 0 (fun h => h0 h.symm)
  obtain ⟨T, L, hT⟩ := hrest
  refine ⟨[(.row nq 0, .gather, fun _ => .unit), (.row nq 0, .gather, fun q => .arr (my q))] ++ T,
    fun r => if colRank nq r = 0 then L r + 1 + 1 else L r, fun r hr => ?_⟩
  unfold sampleEnd
  by_cases hc : colRank nq r = 0
  · have hrow := (hcol0 r).1 hc
    have hm : r ∈ members n (.row nq 0) := by simp [members, hr, hrow]
    simp only [hc, if_true]
    rw [hrow]
    refine Follows.op hm rfl (Follows.op hm rfl ?_)
    refine hT r hr _ ?_
    rintro rfl
    have h0 : (members n (.row nq 0)).idxOf 0 = 0 := by
      have := idxOf_row n nq 0 hn
      rw [hrow] at this
      rw [this, Verif.MPI.rowRank_eq nq 0 hq]
      simp
    simp only [sem, deliver, h0, if_true, Val.arrD, List.map_map, Function.comp_def]
    rw [← hg, List.flatMap_def]
  · simp only [hc, if_false]
    refine skips ?_ (hT r hr [] ?_)
    · have hn : r ∉ members n (.row nq 0) := by
        intro h
        have := (List.mem_filter.1 h).2
        simp only [beq_iff_eq] at this
        exact hc ((hcol0 r).2 this)
      intro e he
      simp only [List.mem_cons, List.not_mem_nil, or_false] at he
      rcases he with rfl | rfl <;> exact hn
    · rintro rfl
      exfalso
      apply hc
      rw [Verif.MPI.colRank_eq nq 0 hq]
      simp

/-- Expected result of `sample`. -/
noncomputable def sampled {I : Type} (b : State X O) (qs : List (Fin 3 → ℝ)) (ks : List I) (kvec : I → Fin 3 → ℝ) (rot : Nat → I → (X → O → O → ℂ) → W) : List (List W) :=
  (List.range qs.length).map fun iq => ks.map fun κ => rot iq κ (total b (qs.getD iq 0) (kvec κ))

theorem follows_sample {I : Type} (ho : Origin b) (hn : 0 < n) (qs : List (Fin 3 → ℝ)) (hqs : qs ≠ []) (ks : List I) (kvec : I → Fin 3 → ℝ)
    (rot : Nat → I → (X → O → O → ℂ) → W) (junk : Nat → List (List W)) (bc : Bool) (s : Nat → Cache b) (hs : ∀ r, r < n → (s r).Good) :
    ∃ T, ∃ L : Nat → Nat, ∃ s' : Nat → Cache b, (∀ r, r < n → (s' r).Good) ∧ ∀ r, r < n →
      Follows (sem n wait) r (sampleProg b n qs ks kvec rot (junk r) bc r (s r)) T
        (s' r, if bc = true ∨ r = 0 then some (sampled b qs ks kvec rot) else none) (L r) := by
  have hq : 0 < qs.length := List.length_pos_of_ne_nil hqs
  set nq := qs.length with hnq
  have hworld : ∀ r, r < n → r ∈ members n .world := fun r hr => List.mem_range.2 hr
  obtain ⟨T1, L1, h1, h2⟩ := follows_g (W := W) (wait := wait) (n := n) ho .world 0 0 id true s fun r hr => hs r (members_lt n _ r hr)
  -- columns
  have hcols := fun j => follows_rows (wait := wait) (n := n) ho (.col nq j) ((boundsRange (bnd n nq .world) j).map (items qs ks kvec rot))
    (fun _ => ⟨some 0, calcGq b 0⟩) (fun _ _ => good_new 0)
  choose T2 L2 s2 h3 h4 h5 using hcols
  -- end
  have hmem : ∀ r, r < n → r ∈ members n (.col nq (colColor nq r)) := by
    intro r hr
    simp [members, hr]
  have hrr : ∀ r, rowRank nq r = colColor nq r := fun r => Verif.MPI.rowRank_eq nq r hq
  obtain ⟨T3, L3, h6⟩ := follows_end (wait := wait) (n := n) nq hn hq junk bc (fun r => s2 (colColor nq r) r)
    (fun r => ((boundsRange (bnd n nq .world) (rowRank nq r)).map (items qs ks kvec rot)).map fun l =>
      if (members n (.col nq (colColor nq r))).idxOf r = 0 then looped b l else [])
    (sampled b qs ks kvec rot) (by simp [sampled, hnq]) (by
      rw [sampled, ← hnq, ← row_ranges n nq hn hq, List.map_flatMap, List.flatMap_def, List.flatMap_def]
      congr 1
      apply List.map_congr_left
      intro r hr
      have hrn := members_lt n _ r hr
      have h0 : (members n (.col nq (colColor nq r))).idxOf r = 0 := by
        rw [idxOf_col n nq r hrn, Verif.MPI.colRank_eq nq r hq]
        simpa [rowColor] using (List.mem_filter.1 hr).2
      simp only [h0, if_true, List.map_map]
      apply List.map_congr_left
      intro iq _
      simp [items, looped, Function.comp_def])
  refine ⟨distT b W n nq .world ++ (distT b W n nq .world ++ ([(.world, .barrier, fun _ => .unit), (.world, .barrier, fun _ => .unit)] ++
    (T1 ++ ((List.range nq).flatMap T2 ++ T3)))), fun r => L1 + (L2 (colColor nq r) + L3 r) + 1 + 1 + 2 + 2, fun r => s2 (colColor nq r) r,
    fun r hr => h4 _ r (hmem r hr), fun r hr => ?_⟩
  have hw := hworld r hr
  refine follows_distribute _ .world r hw _ (follows_distribute _ .world r hw _ (Follows.op hw rfl (Follows.op hw rfl ?_)))
  refine (h2 r hw).bind ?_
  have hcol := h5 (colColor nq r) r (hmem r hr)
  have hend := h6 r hr
  have := hcol.bind (f := fun y => sampleEnd b nq (junk r) bc r y.1 y.2) (by
    simp only
    rw [hrr r] at hend
    exact hend)
  refine among _ List.nodup_range (colColor nq r) (List.mem_range.2 (Nat.mod_lt _ hq)) T2 ?_ ?_
  · intro j _ hj e he h
    rw [h3 j e he] at h
    have := (List.mem_filter.1 h).2
    simp only [beq_iff_eq] at this
    exact hj this.symm
  · simp only [← hnq, hrr r]
    exact this

end

/-! ## Scripts -/

section
variable {X O W I : Type} [DecidableEq O]

/-- What all processes call: `elph.g(*q, *k, broadcast=..., ...)`, the same with `comm=elphmod.MPI.I` and own wave vectors on each process,
`elph.sample(...)`. -/
inductive Call (X O W I : Type) where
  | g (q k : Fin 3 → ℝ) (post : (X → O → O → ℂ) → X → O → O → ℂ) (broadcast : Bool)
  | alone (q k : Nat → Fin 3 → ℝ) (post : Nat → (X → O → O → ℂ) → X → O → O → ℂ)
  | sample (qs : List (Fin 3 → ℝ)) (ks : List I) (kvec : I → Fin 3 → ℝ) (rot : Nat → I → (X → O → O → ℂ) → W) (junk : Nat → List (List W))
      (broadcast : Bool)

/-- What the call returns. -/
inductive Out (X O W : Type) where
  | g (x : Option (X → O → O → ℂ))
  | sample (x : Option (List (List W)))

variable (b : State X O) (n : Nat)

/-- One call on process `r`. -/
noncomputable def Call.prog (c : Call X O W I) (r : Nat) (s : Cache b) : P b W (Cache b × Out X O W) :=
  match c with
  | .g q k post bc => (gProg b n .world q k post bc r s).bind fun x => .ret (x.1, .g x.2)
  | .alone q k post => (gProg b n (.self r) (q r) (k r) (post r) true r s).bind fun x => .ret (x.1, .g x.2)
  | .sample qs ks kvec rot junk bc => (sampleProg b n qs ks kvec rot (junk r) bc r s).bind fun x => .ret (x.1, .sample x.2)

/-- Program of process `r`. -/
noncomputable def script : List (Call X O W I) → Nat → Cache b → P b W (List (Out X O W))
  | [], _, _ => .ret []
  | c :: cs, r, s => (c.prog b n r s).bind fun x => (script cs r x.1).bind fun y => .ret (x.2 :: y)

/-- Specification: what the call should return on process `r`. -/
noncomputable def Call.expected (r : Nat) : Call X O W I → Out X O W
  | .g q k post bc => .g (if bc = true ∨ r = 0 then some (post (total b q k)) else none)
  | .alone q k post => .g (some (post r (total b (q r) (k r))))
  | .sample qs ks kvec rot _ bc => .sample (if bc = true ∨ r = 0 then
      some ((List.range qs.length).map fun iq => ks.map fun κ => rot iq κ (total b (qs.getD iq 0) (kvec κ))) else none)

/-- There are q points. -/
def Call.Ok : Call X O W I → Prop
  | .sample qs _ _ _ _ _ => qs ≠ []
  | _ => True

variable {b n} {wait : Kind → Nat → Nat → Bool}

theorem follows_call (ho : Origin b) (hn : 0 < n) (c : Call X O W I) (hc : c.Ok) (s : Nat → Cache b) (hs : ∀ r, r < n → (s r).Good) :
    ∃ T, ∃ L : Nat → Nat, ∃ s' : Nat → Cache b, (∀ r, r < n → (s' r).Good) ∧ ∀ r, r < n →
      Follows (sem n wait) r (c.prog b n r (s r)) T (s' r, c.expected b r) (L r) := by
  cases c with
  | g q k post bc =>
    obtain ⟨T, l, -, h⟩ := follows_g (W := W) (wait := wait) (n := n) ho .world q k post bc s fun r hr => hs r (members_lt n _ r hr)
    refine ⟨T ++ [], fun _ => l + 0, fun _ => ⟨some q, calcGq b q⟩, fun _ _ => good_new q, fun r hr => ?_⟩
    have := h r (List.mem_range.2 hr)
    rw [idxOf_world n r hr] at this
    exact this.bind (Follows.ret _)
  | alone q k post =>
    have hself : ∀ j, ∃ T l, (∀ e ∈ T, e.1 = .self j) ∧ ∀ r ∈ members n (.self j), Follows (sem n wait) r
        (gProg b n (.self j) (q j) (k j) (post j) true r (s r) : P b W _) T (⟨some (q j), calcGq b (q j)⟩, some (post j (total b (q j) (k j)))) l := by
      intro j
      obtain ⟨T, l, h1, h2⟩ := follows_g (W := W) (wait := wait) (n := n) ho (.self j) (q j) (k j) (post j) true s fun r hr => hs r (members_lt n _ r hr)
      exact ⟨T, l, h1, fun r hr => by simpa using h2 r hr⟩
    choose T l h1 h2 using hself
    refine ⟨(List.range n).flatMap T ++ [], fun r => l r + 0, fun r => ⟨some (q r), calcGq b (q r)⟩, fun r _ => good_new (q r), fun r hr => ?_⟩
    refine among _ List.nodup_range r (List.mem_range.2 hr) T ?_ ?_
    · intro j _ hj e he h
      rw [h1 j e he] at h
      change r ∈ (if j < n then [j] else []) at h
      split_ifs at h
      · exact hj (List.mem_singleton.1 h).symm
      · cases h
    · exact (h2 r r (by simp [members, hr])).bind (Follows.ret _)
  | sample qs ks kvec rot junk bc =>
    obtain ⟨T, L, s', h1, h2⟩ := follows_sample (wait := wait) ho hn qs hc ks kvec rot junk bc s hs
    exact ⟨T ++ [], fun r => L r + 0, s', h1, fun r hr => (h2 r hr).bind (Follows.ret _)⟩

theorem follows_script (ho : Origin b) (hn : 0 < n) (cs : List (Call X O W I)) (hcs : ∀ c ∈ cs, c.Ok) (s : Nat → Cache b) (hs : ∀ r, r < n → (s r).Good) :
    ∃ T, ∃ L : Nat → Nat, ∀ r, r < n → Follows (sem n wait) r (script b n cs r (s r)) T (cs.map (Call.expected b r)) (L r) := by
  induction cs generalizing s with
  | nil => exact ⟨[], fun _ => 0, fun r _ => Follows.ret _⟩
  | cons c cs ih =>
    obtain ⟨T, L, s', h1, h2⟩ := follows_call (wait := wait) ho hn c (hcs c (by simp)) s hs
    obtain ⟨T', L', h3⟩ := ih (fun c hc => hcs c (by simp [hc])) s' h1
    exact ⟨T ++ (T' ++ []), fun r => L r + (L' r + 0), fun r hr => (h2 r hr).bind ((h3 r hr).bind (Follows.ret _))⟩

/-! ## Theorems -/

/-- **C163** Whatever has been cached before by the individual processes, whatever the processes call (the coupling at single points by all processes or by each process
on its own, sampling), in whatever order they advance and however long they wait for each other: a process that has finished has obtained the Fourier
transforms (plus long-range terms) for all its calls. -/
theorem C163_results (ho : Origin b) (hn : 0 < n) (hM : (sem n wait : Sem CM Kind (Val X O W b.c.nk)).Sound) (cs : List (Call X O W I)) (hcs : ∀ c ∈ cs, c.Ok) (s : Nat → Cache b)
    (hs : ∀ r, r < n → ∀ q, (s r).q = some q → (s r).gq = calcGq b q) (sched : List Nat) (r : Nat) (hr : r < n) (out : List (Out X O W))
    (h : (Verif.MPI.Exch.run n (sem n wait) (init fun r => script b n cs r (s r)) sched).prog r = .ret out) : out = cs.map (Call.expected b r) := by
  obtain ⟨T, L, hF⟩ := follows_script (wait := wait) ho hn cs hcs s hs
  exact run_ret hM (fun c q hq => members_lt n c q hq) (members_nodup n) hF sched r hr out h

/-- **C163** Such scripts never block: they end after finitely many rounds in which every process gets its turn. -/
theorem C163_ends (ho : Origin b) (hn : 0 < n) (hM : (sem n wait : Sem CM Kind (Val X O W b.c.nk)).Sound) (cs : List (Call X O W I)) (hcs : ∀ c ∈ cs, c.Ok) (s : Nat → Cache b)
    (hs : ∀ r, r < n → ∀ q, (s r).q = some q → (s r).gq = calcGq b q) :
    ∃ N, ∀ rounds : List (List Nat), (∀ round ∈ rounds, ∀ r, r < n → r ∈ round) → N ≤ rounds.length → ∀ r, r < n →
      (Verif.MPI.Exch.run n (sem n wait) (init fun r => script b n cs r (s r)) rounds.flatten).prog r = .ret (cs.map (Call.expected b r)) := by
  obtain ⟨T, L, hF⟩ := follows_script (wait := wait) ho hn cs hcs s hs
  exact ⟨_, fun rounds hrounds hlen => run_fair hM (fun c q hq => members_lt n c q hq) (members_nodup n) hF rounds hrounds hlen⟩

/-- **C163** In particular, if all processes sample the coupling in the band basis on the mesh `nk`, then the process of rank zero (or every process) obtains
the coupling transformed with the eigenvectors `U` at k + q and k and `u` at q (`sampleOne`, see C117), also if the model has been used before. -/
theorem C163_bands [Fintype X] [Fintype O] {n1 n2 n3 nq : Nat} [NeZero n1] [NeZero n2] [NeZero n3] (ho : Origin b) (hn : 0 < n) (hq : 0 < nq)
    (q : Fin nq → Fin 3 → ℝ) (U : Option (Frame (Mesh n1 n2 n3) O)) (u : Option (Frame (Fin nq) X)) (squared : Bool) (ks : List (Mesh n1 n2 n3))
    (hM : (sem n wait : Sem CM Kind (Val X O (Frame.Index u → Frame.Index U → Frame.Index U → ℂ) b.c.nk)).Sound)
    (junk : Nat → List (List (Frame.Index u → Frame.Index U → Frame.Index U → ℂ))) (bc : Bool) (s : Nat → Cache b)
    (hs : ∀ r, r < n → ∀ q, (s r).q = some q → (s r).gq = calcGq b q) (sched : List Nat) (r : Nat) (hr : r < n) (out : List (Out X O _))
    (h : (Verif.MPI.Exch.run n (sem n wait) (init fun r => script b n [.sample (List.ofFn q) ks
      (fun K => ![(K.1 : ℕ) * (2 * Real.pi / n1), (K.2.1 : ℕ) * (2 * Real.pi / n2), (K.2.2 : ℕ) * (2 * Real.pi / n3)])
      (fun iq K g nu => if h : iq < nq then toBands U u squared ⟨iq, h⟩ (let Q := fun n i => roundEven (q ⟨iq, h⟩ i / (2 * Real.pi / (n : Nat)))
        (wrap K.1 (Q n1 0), wrap K.2.1 (Q n2 1), wrap K.2.2 (Q n3 2))) K g nu else fun _ _ => 0) junk bc] r (s r)) sched).prog r = .ret out) :
    out = [.sample (if bc = true ∨ r = 0 then some (List.ofFn fun iq : Fin nq => ks.map fun K nu => sampleOne (total b) q U u squared iq nu K) else none)] := by
  have := C163_results ho hn hM _ (fun c hc => by
    rw [List.mem_singleton.1 hc]
    intro h
    rw [List.ofFn_eq_nil_iff] at h
    omega) s hs sched r hr out h
  rw [this]
  simp only [List.map_cons, List.map_nil, Call.expected, List.length_ofFn]
  congr 3
  congr 1
  refine List.ext_getElem (by simp) fun i h1 h2 => ?_
  have hi : i < nq := by simpa using h2
  simp only [List.getElem_map, List.getElem_range, List.getElem_ofFn, dif_pos hi]
  refine List.map_congr_left fun K _ => ?_
  funext nu
  simp [sampleOne, List.getD, hi]

/-- Waiting for all processes of the communicator is one possibility. -/
theorem sound_all {nk : Nat} : (sem n fun _ _ _ => true : Sem CM Kind (Val X O W nk)).Sound := by
  intro κ l l' i _ h
  have : l = l' := List.ext_getElem? fun j => h j (Or.inl rfl)
  rw [this]

/-- Waiting for nothing but what is needed is another one: only the root needs all contributions to `Reduce` and `Gatherv`, only the contribution of the root
is needed for `Bcast`. A `Barrier` needs no data, here nobody waits there. -/
theorem sound_min {nk : Nat} : (sem n fun κ i j => match κ with
    | .any => true
    | .sum => true
    | .reduce => decide (i = 0)
    | .bcast => decide (j = 0)
    | .gather => decide (i = 0)
    | .barrier => false : Sem CM Kind (Val X O W nk)).Sound := by
  intro κ l l' i hl h
  have hext : (∀ j, l[j]? = l'[j]?) → l = l' := List.ext_getElem?
  cases κ with
  | any => rw [hext fun j => h j (Or.inl rfl)]
  | sum => rw [hext fun j => h j (Or.inl rfl)]
  | reduce =>
    by_cases hi : i = 0
    · rw [hext fun j => h j (Or.inl (decide_eq_true hi))]
    · simp [sem, deliver, hi]
  | bcast =>
    have := h 0 (Or.inl rfl)
    show l.headD .unit = l'.headD .unit
    cases l <;> cases l' <;> simp_all
  | gather =>
    by_cases hi : i = 0
    · rw [hext fun j => h j (Or.inl (decide_eq_true hi))]
    · simp [sem, deliver, hi]
  | barrier => rfl

/-- A script for five processes: coupling at single points by all processes, by each process at other points, sampling for two q points. -/
noncomputable def exampleScript : List (Call (Fin 1 × Fin 3) (Fin 1) ℂ ℕ) :=
  [.g 0 (fun _ => 1) id false, .alone (fun r _ => r) (fun r _ => 2 * r) (fun _ g => g), .g (fun _ => 1) 0 id true,
    .sample [0, fun _ => 1] [0, 1, 2] (fun κ _ => κ) (fun _ _ g => g (0, 0) 0 0) (fun _ => []) true]

example : ∃ N, ∀ rounds : List (List Nat), (∀ round ∈ rounds, ∀ r, r < 5 → r ∈ round) → N ≤ rounds.length → ∀ r, r < 5 →
    (Verif.MPI.Exch.run 5 (sem 5 fun _ _ _ => true) (init fun r => script const1 5 exampleScript r ⟨none, fun _ _ _ _ => 7⟩) rounds.flatten).prog r =
      .ret (exampleScript.map (Call.expected const1 r)) :=
  C163_ends (fun h => absurd rfl h) (by norm_num) sound_all _ (by
    intro c hc
    simp only [exampleScript, List.mem_cons, List.not_mem_nil, or_false] at hc
    rcases hc with rfl | rfl | rfl | rfl <;> simp [Call.Ok]) _ (fun _ _ _ h => by cases h)

example (sched : List Nat) (out) := C163_results (b := const1) (n := 5) (wait := fun κ i j => match κ with
    | .any => true
    | .sum => true
    | .reduce => decide (i = 0)
    | .bcast => decide (j = 0)
    | .gather => decide (i = 0)
    | .barrier => false) (fun h => absurd rfl h) (by norm_num) sound_min exampleScript (by
    intro c hc
    simp only [exampleScript, List.mem_cons, List.not_mem_nil, or_false] at hc
    rcases hc with rfl | rfl | rfl | rfl <;> simp [Call.Ok]) (fun _ => ⟨none, fun _ _ _ _ => 7⟩) (fun _ _ _ h => by cases h) sched 3 (by norm_num) out

example (sched : List Nat) (out) := C163_bands (b := const1) (n := 3) (n1 := 2) (n2 := 1) (n3 := 1) (nq := 2) (wait := fun _ _ _ => true)
  (fun h => absurd rfl h) (by norm_num) (by norm_num) (fun i _ => i * Real.pi) (some ⟨Fin 1, fun _ => 1⟩) none true [(0, 0, 0), (1, 0, 0)] sound_all
  (fun _ => []) true (fun _ => ⟨some 0, calcGq const1 0⟩) (fun r _ q h => by cases h; rfl) sched 2 (by norm_num) out

end

end Verif.ElPh.Par
