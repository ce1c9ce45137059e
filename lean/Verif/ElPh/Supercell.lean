import Verif.ElPh.Props
import Verif.TB.Supercell

/-!
# Supercells of the electron-phonon coupling (C78)
-/

namespace Verif.ElPh

open Verif.Lattice (V3 vadd vsub Supercell toSupercell detSpec latPoint)
open Verif.Fourier (phase)
open Verif.TB (tsc tsc_spec tsc_some tsc_iff superK phase_superK phase_add mapM_some vadd_right_cancel)

variable {X O : Type}

/-- Block as a matrix of the size of the supercell. -/
noncomputable def single (o : Block X O) (x : Nat × X) (a b : Nat × O) : ℂ :=
  if x.1 = o.rg ∧ a.1 = o.i ∧ b.1 = o.rk then o.M x.2 a.2 b.2 else 0

theorem setBlock_eq (d : Dict (Nat × X) (Nat × O)) (o : Block X O)
    (h : ∀ e ∈ d, e.1 = o.R → ∀ x a b, e.2 (o.rg, x) (o.i, a) (o.rk, b) = 0) :
    setBlock d o = addTo d o.R (single o) := by
  unfold setBlock addTo
  by_cases hR : o.R ∈ d.map Prod.fst
  · rw [if_pos hR, if_pos hR]
    apply List.map_congr_left
    intro e he
    by_cases h1 : e.1 = o.R
    · rw [if_pos h1, if_pos h1]
      congr 1
      funext x a b
      unfold single
      by_cases h2 : x.1 = o.rg ∧ a.1 = o.i ∧ b.1 = o.rk
      · rw [if_pos h2, if_pos h2]
        have h3 := h e he h1 x.2 a.2 b.2
        rw [← h2.1, ← h2.2.1, ← h2.2.2] at h3
        rw [show e.2 x a b = 0 from h3, zero_add]
      · rw [if_neg h2, if_neg h2, add_zero]
    · rw [if_neg h1, if_neg h1]
  · rw [if_neg hR, if_neg hR]
    rfl

/-- Position of a block. -/
def key (o : Block X O) : (V3 × V3) × Nat × Nat × Nat := (o.R, o.rg, o.i, o.rk)

theorem mem_addTo {X O : Type} (d : Dict X O) (R : V3 × V3) (M : X → O → O → ℂ) (e : (V3 × V3) × (X → O → O → ℂ))
    (he : e ∈ addTo d R M) : e ∈ d ∨ (e.1 = R ∧ (e.2 = M ∨ ∃ e' ∈ d, e'.1 = R ∧
      e.2 = fun x a b => e'.2 x a b + M x a b)) := by
  unfold addTo at he
  split at he
  · obtain ⟨e', h1, h2⟩ := List.mem_map.1 he
    by_cases h3 : e'.1 = R
    · rw [if_pos h3] at h2
      subst h2
      exact Or.inr ⟨h3, Or.inr ⟨e', h1, h3, rfl⟩⟩
    · rw [if_neg h3] at h2
      subst h2
      exact Or.inl h1
  · rcases List.mem_append.1 he with h | h
    · exact Or.inl h
    · rw [List.mem_singleton] at h
      subst h
      exact Or.inr ⟨rfl, Or.inl rfl⟩

/-- If no position is repeated, assignments and additions are the same. -/
theorem setBlock_fold (l : List (Block X O)) (d : Dict (Nat × X) (Nat × O)) (hl : (l.map key).Nodup)
    (h : ∀ o ∈ l, ∀ e ∈ d, e.1 = o.R → ∀ x a b, e.2 (o.rg, x) (o.i, a) (o.rk, b) = 0) :
    l.foldl setBlock d = l.foldl (fun d o => addTo d o.R (single o)) d := by
  induction l generalizing d with
  | nil => rfl
  | cons o l ih =>
    rw [List.map_cons, List.nodup_cons] at hl
    rw [List.foldl_cons, List.foldl_cons, setBlock_eq d o (h o List.mem_cons_self)]
    apply ih _ hl.2
    intro o' ho' e he hR x a b
    have hne : key o ≠ key o' := fun hk => hl.1 (hk ▸ List.mem_map_of_mem ho')
    have hs : e.1 = o.R → single o (o'.rg, x) (o'.i, a) (o'.rk, b) = 0 := by
      intro h1
      unfold single
      rw [if_neg]
      rintro ⟨h2, h3, h4⟩
      apply hne
      unfold key
      simp only at h2 h3 h4
      rw [← h1, hR, h2, h3, h4]
    rcases mem_addTo d _ _ e he with h1 | ⟨h1, h2 | ⟨e', h2, h3, h4⟩⟩
    · exact h o' (List.mem_cons_of_mem _ ho') e h1 hR x a b
    · rw [h2]
      exact hs h1
    · rw [h4]
      simp only
      rw [hs h1, h o' (List.mem_cons_of_mem _ ho') e' h2 (by rw [h3, ← h1, hR]), add_zero]

theorem addFold_nodup (l : List (Block X O)) (d : Dict (Nat × X) (Nat × O)) (h : (d.map Prod.fst).Nodup) :
    ((l.foldl (fun d o => addTo d o.R (single o)) d).map Prod.fst).Nodup := by
  induction l generalizing d with
  | nil => exact h
  | cons o l ih => exact ih _ (addTo_nodup d _ _ h)

theorem addFold_wsum (w : V3 × V3 → ℂ) (l : List (Block X O)) (d : Dict (Nat × X) (Nat × O))
    (h : (d.map Prod.fst).Nodup) (x : Nat × X) (a b : Nat × O) :
    wsum w (l.foldl (fun d o => addTo d o.R (single o)) d) x a b =
      wsum w d x a b + (l.map fun o => w o.R * single o x a b).sum := by
  induction l generalizing d with
  | nil => simp
  | cons o l ih =>
    rw [List.foldl_cons, ih _ (addTo_nodup d _ _ h), wsum_addTo w d _ _ h, List.map_cons, List.sum_cons]
    ring

/-! ### The blocks -/

/-- A block when `to_supercell` does not fail. -/
def blk (s : Supercell) (c : Coupling X O) (i : Nat) (g : Fin c.ng) (k : Fin c.nk) : Block X O :=
  ⟨((tsc s (vadd (c.Rg g) (s.cells.getD i (0, 0, 0)))).1, (tsc s (vadd (c.Rk k) (s.cells.getD i (0, 0, 0)))).1),
    (tsc s (vadd (c.Rg g) (s.cells.getD i (0, 0, 0)))).2, i, (tsc s (vadd (c.Rk k) (s.cells.getD i (0, 0, 0)))).2,
    fun x a b => c.data g x k a b⟩

/-- All blocks when `to_supercell` does not fail. -/
def blks (s : Supercell) (c : Coupling X O) : List (Block X O) :=
  (List.range s.cells.length).flatMap fun i => (List.finRange c.ng).flatMap fun g => (List.finRange c.nk).map fun k =>
    blk s c i g k

variable {N1 N2 N3 : V3} {s : Supercell}

theorem blocks_eq (hD : detSpec N1 N2 N3 ≠ 0) (hs : Verif.Lattice.supercell N1 N2 N3 = some s) (c : Coupling X O) :
    blocks s c = some (blks s c) := by
  unfold blocks
  have : ((List.range s.cells.length).flatMap fun i => (List.finRange c.ng).flatMap fun g =>
      (List.finRange c.nk).map fun k => blockOf s c i g k) = (blks s c).map fun o => some o := by
    unfold blks
    simp only [List.map_flatMap, List.map_map]
    congr 1
    funext i
    congr 1
    funext g
    apply List.map_congr_left
    intro k _
    unfold blockOf
    rw [tsc_some hD hs, tsc_some hD hs]
    rfl
  rw [this, mapM_some]
  simp

theorem blks_nodup (hD : detSpec N1 N2 N3 ≠ 0) (hs : Verif.Lattice.supercell N1 N2 N3 = some s) (c : Coupling X O)
    (hg : Function.Injective c.Rg) (hk : Function.Injective c.Rk) : ((blks s c).map key).Nodup := by
  have hinj : ∀ (S : V3) (R R' : V3), (tsc s (vadd R S)).1 = (tsc s (vadd R' S)).1 →
      (tsc s (vadd R S)).2 = (tsc s (vadd R' S)).2 → R = R' := by
    intro S R R' h1 h2
    have h3 := (tsc_spec hD hs (vadd R S)).2
    rw [h1, h2, ← (tsc_spec hD hs (vadd R' S)).2] at h3
    exact vadd_right_cancel _ _ _ h3
  unfold blks
  simp only [List.map_flatMap, List.map_map]
  rw [List.nodup_flatMap]
  constructor
  · intro i _
    rw [List.nodup_flatMap]
    constructor
    · intro g _
      apply (List.nodup_finRange _).map
      intro k k' h
      simp only [Function.comp, key, blk, Prod.mk.injEq, true_and] at h
      exact hk (hinj _ _ _ h.1 h.2)
    · refine (List.nodup_finRange _).imp ?_
      intro g g' hgg y hy hy'
      obtain ⟨k, _, rfl⟩ := List.mem_map.1 hy
      obtain ⟨k', _, h⟩ := List.mem_map.1 hy'
      simp only [Function.comp, key, blk, Prod.mk.injEq, true_and] at h
      exact hgg (hg (hinj _ _ _ h.1.1 h.2.1)).symm
  · refine List.nodup_range.imp ?_
    intro i j hij y hy hy'
    simp only [List.mem_flatMap, List.mem_map] at hy hy'
    obtain ⟨g, _, k, _, rfl⟩ := hy
    obtain ⟨g', _, k', _, h⟩ := hy'
    simp only [Function.comp, key, blk, Prod.mk.injEq] at h
    exact hij h.2.2.1.symm

theorem sum_finRange (n : Nat) (f : Fin n → ℂ) : ((List.finRange n).map f).sum = ∑ i, f i := by
  rw [← List.ofFn_eq_map, List.sum_ofFn]

theorem sum_blks (s : Supercell) (c : Coupling X O) (f : Block X O → ℂ) :
    ((blks s c).map f).sum = ∑ i ∈ Finset.range s.cells.length, ∑ g, ∑ k, f (blk s c i g k) := by
  unfold blks
  rw [List.map_flatMap, Verif.Fourier.sum_flatMap', Verif.TB.list_range_sum']
  refine Finset.sum_congr rfl fun i _ => ?_
  rw [List.map_flatMap, Verif.Fourier.sum_flatMap', sum_finRange]
  refine Finset.sum_congr rfl fun g _ => ?_
  rw [List.map_map, sum_finRange]
  rfl

/-- Weighted sum of the coupling of the supercell. -/
theorem supercell_wsum (hD : detSpec N1 N2 N3 ≠ 0) (hs : Verif.Lattice.supercell N1 N2 N3 = some s)
    (c : Coupling X O) (hg : Function.Injective c.Rg) (hk : Function.Injective c.Rk)
    (c' : Coupling (Nat × X) (Nat × O)) (h : supercell s c = some c') (w : V3 × V3 → ℂ) (x : Nat × X) (a b : Nat × O) :
    ∑ g, ∑ k, w (c'.Rg g, c'.Rk k) * c'.data g x k a b =
      ∑ i ∈ Finset.range s.cells.length, ∑ g, ∑ k, w (blk s c i g k).R * single (blk s c i g k) x a b := by
  unfold supercell at h
  rw [blocks_eq hD hs, Option.map_some, Option.some.injEq] at h
  have hf : (blks s c).foldl setBlock [] = (blks s c).foldl (fun d o => addTo d o.R (single o)) [] :=
    setBlock_fold _ _ (blks_nodup hD hs c hg hk) (by simp)
  rw [hf] at h
  subst h
  rw [sum_toArrays w false _ (addFold_nodup _ _ (by simp)) _ _ (nodup_sortedSet _) (nodup_sortedSet _),
    addFold_wsum w _ _ (by simp), sum_blks]
  · simp [wsum]
  · intro e he
    rw [mem_sortedSet, mem_sortedSet]
    exact ⟨List.mem_map_of_mem he, List.mem_map_of_mem he⟩

/-- C78: `g(q, k)` of the unit cell is a Bloch sum of `g` of the supercell at the folded wave vectors. -/
theorem C78_folding (N1 N2 N3 : V3) (hD : detSpec N1 N2 N3 ≠ 0) (s : Supercell)
    (hs : Verif.Lattice.supercell N1 N2 N3 = some s) (c : Coupling X O) (hg : Function.Injective c.Rg)
    (hk : Function.Injective c.Rk) (c' : Coupling (Nat × X) (Nat × O)) (h : supercell s c = some c')
    (q k : Fin 3 → ℝ) (i : Nat) (hi : i < s.cells.length) (x : X) (a b : O) :
    ∑ r ∈ Finset.range s.cells.length, ∑ j ∈ Finset.range s.cells.length,
        phase (s.cells.getD r (0, 0, 0)) q * phase (s.cells.getD j (0, 0, 0)) k *
          fourier c' (superK N1 N2 N3 q) (superK N1 N2 N3 k) (r, x) (i, a) (j, b) =
      phase (s.cells.getD i (0, 0, 0)) q * phase (s.cells.getD i (0, 0, 0)) k * fourier c q k x a b := by
  have h1 : ∀ r j, fourier c' (superK N1 N2 N3 q) (superK N1 N2 N3 k) (r, x) (i, a) (j, b) =
      ∑ g, ∑ l, weight (superK N1 N2 N3 q) (superK N1 N2 N3 k) (blk s c i g l).R *
        single (blk s c i g l) (r, x) (i, a) (j, b) := by
    intro r j
    rw [fourier_eq, supercell_wsum hD hs c hg hk c' h, Finset.sum_eq_single i]
    · intro i' _ hne
      refine Finset.sum_eq_zero fun g _ => Finset.sum_eq_zero fun l _ => ?_
      simp [single, blk, hne.symm]
    · intro h
      exact absurd (Finset.mem_range.2 hi) h
  simp only [h1]
  have h2 : ∀ g l, ∑ r ∈ Finset.range s.cells.length, ∑ j ∈ Finset.range s.cells.length,
      phase (s.cells.getD r (0, 0, 0)) q * phase (s.cells.getD j (0, 0, 0)) k *
        (weight (superK N1 N2 N3 q) (superK N1 N2 N3 k) (blk s c i g l).R *
        single (blk s c i g l) (r, x) (i, a) (j, b)) =
      phase (s.cells.getD i (0, 0, 0)) q * phase (s.cells.getD i (0, 0, 0)) k *
        (weight q k (c.Rg g, c.Rk l) * c.data g x l a b) := by
    intro g l
    obtain ⟨g1, g2⟩ := tsc_spec hD hs (vadd (c.Rg g) (s.cells.getD i (0, 0, 0)))
    obtain ⟨k1, k2⟩ := tsc_spec hD hs (vadd (c.Rk l) (s.cells.getD i (0, 0, 0)))
    have hp : phase (c.Rg g) q * phase (s.cells.getD i (0, 0, 0)) q =
        phase (latPoint N1 N2 N3 (tsc s (vadd (c.Rg g) (s.cells.getD i (0, 0, 0)))).1) q *
          phase (s.cells.getD (tsc s (vadd (c.Rg g) (s.cells.getD i (0, 0, 0)))).2 (0, 0, 0)) q := by
      rw [← phase_add, ← phase_add, ← g2]
    have hp' : phase (c.Rk l) k * phase (s.cells.getD i (0, 0, 0)) k =
        phase (latPoint N1 N2 N3 (tsc s (vadd (c.Rk l) (s.cells.getD i (0, 0, 0)))).1) k *
          phase (s.cells.getD (tsc s (vadd (c.Rk l) (s.cells.getD i (0, 0, 0)))).2 (0, 0, 0)) k := by
      rw [← phase_add, ← phase_add, ← k2]
    rw [Finset.sum_eq_single (blk s c i g l).rg, Finset.sum_eq_single (blk s c i g l).rk]
    · unfold single weight
      rw [if_pos ⟨rfl, rfl, rfl⟩, phase_superK, phase_superK]
      unfold blk
      simp only
      generalize phase (s.cells.getD (tsc s (vadd (c.Rg g) (s.cells.getD i (0, 0, 0)))).2 (0, 0, 0)) q = p1 at *
      generalize phase (s.cells.getD (tsc s (vadd (c.Rk l) (s.cells.getD i (0, 0, 0)))).2 (0, 0, 0)) k = p2 at *
      generalize phase (latPoint N1 N2 N3 (tsc s (vadd (c.Rg g) (s.cells.getD i (0, 0, 0)))).1) q = p3 at *
      generalize phase (latPoint N1 N2 N3 (tsc s (vadd (c.Rk l) (s.cells.getD i (0, 0, 0)))).1) k = p4 at *
      linear_combination (- c.data g x l a b * p2 * p4) * hp -
        c.data g x l a b * (phase (c.Rg g) q * phase (s.cells.getD i (0, 0, 0)) q) * hp'
    · intro j _ hj
      simp [single, hj]
    · intro h
      exact absurd (Finset.mem_range.2 k1) h
    · intro r _ hr
      refine Finset.sum_eq_zero fun j _ => ?_
      simp [single, hr]
    · intro h
      exact absurd (Finset.mem_range.2 g1) h
  rw [fourier_eq, Finset.mul_sum]
  simp only [Finset.mul_sum]
  have h3 : ∀ r, ∑ j ∈ Finset.range s.cells.length, ∑ g, ∑ l, phase (s.cells.getD r (0, 0, 0)) q *
      phase (s.cells.getD j (0, 0, 0)) k * (weight (superK N1 N2 N3 q) (superK N1 N2 N3 k) (blk s c i g l).R *
        single (blk s c i g l) (r, x) (i, a) (j, b)) = ∑ g, ∑ l, ∑ j ∈ Finset.range s.cells.length,
      phase (s.cells.getD r (0, 0, 0)) q * phase (s.cells.getD j (0, 0, 0)) k *
        (weight (superK N1 N2 N3 q) (superK N1 N2 N3 k) (blk s c i g l).R *
        single (blk s c i g l) (r, x) (i, a) (j, b)) := by
    intro r
    rw [Finset.sum_comm]
    refine Finset.sum_congr rfl fun g _ => ?_
    rw [Finset.sum_comm]
  simp only [h3]
  rw [Finset.sum_comm]
  refine Finset.sum_congr rfl fun g _ => ?_
  rw [Finset.sum_comm]
  exact Finset.sum_congr rfl fun l _ => h2 g l

/-- C78: matrix elements depend on the differences of the original cells only: the coupling of cells of the supercell
is that of the original lattice vectors. -/
theorem C78_blocks (N1 N2 N3 : V3) (hD : detSpec N1 N2 N3 ≠ 0) (s : Supercell)
    (hs : Verif.Lattice.supercell N1 N2 N3 = some s) (c : Coupling X O) (hg : Function.Injective c.Rg)
    (hk : Function.Injective c.Rk) (c' : Coupling (Nat × X) (Nat × O)) (h : supercell s c = some c')
    (R S : V3) (r i j : Nat) (hr : r < s.cells.length) (hi : i < s.cells.length) (hj : j < s.cells.length)
    (x : X) (a b : O) :
    ∑ g, ∑ k, (if c'.Rg g = R ∧ c'.Rk k = S then c'.data g (r, x) k (i, a) (j, b) else 0) =
      ∑ g, ∑ k, if vadd (c.Rg g) (s.cells.getD i (0, 0, 0)) = vadd (latPoint N1 N2 N3 R) (s.cells.getD r (0, 0, 0)) ∧
        vadd (c.Rk k) (s.cells.getD i (0, 0, 0)) = vadd (latPoint N1 N2 N3 S) (s.cells.getD j (0, 0, 0))
        then c.data g x k a b else 0 := by
  have h1 := supercell_wsum hD hs c hg hk c' h (fun T => if T = (R, S) then 1 else 0) (r, x) (i, a) (j, b)
  simp only [Prod.mk.injEq, ite_mul, one_mul, zero_mul] at h1
  rw [h1, Finset.sum_eq_single i]
  · refine Finset.sum_congr rfl fun g _ => Finset.sum_congr rfl fun k _ => ?_
    have hA := tsc_iff hD hs (vadd (c.Rg g) (s.cells.getD i (0, 0, 0))) R r hr
    have hB := tsc_iff hD hs (vadd (c.Rk k) (s.cells.getD i (0, 0, 0))) S j hj
    simp only [← hA, ← hB]
    unfold single blk
    simp only [Prod.ext_iff, true_and]
    split_ifs with h1 h2 h3 h3 h3
    · rfl
    · exact absurd ⟨⟨h1.1, h2.1.symm⟩, h1.2, h2.2.symm⟩ h3
    · exact absurd ⟨h3.1.2.symm, h3.2.2.symm⟩ h2
    · rfl
    · exact absurd ⟨h3.1.1, h3.2.1⟩ h1
    · rfl
  · intro i' _ hne
    refine Finset.sum_eq_zero fun g _ => Finset.sum_eq_zero fun l _ => ?_
    simp [single, blk, hne.symm]
  · intro h
    exact absurd (Finset.mem_range.2 hi) h

theorem sparse_fold (l : List (Block X O)) (d : Nat × X → Nat × O → Nat × O → ℝ) (x : Nat × X) (a b : Nat × O) :
    l.foldl (fun d o x a b =>
      d x a b + if x.1 = o.rg ∧ a.1 = o.i ∧ b.1 = o.rk then (o.M x.2 a.2 b.2).re else 0) d x a b =
      d x a b + ((l.map fun o => single o x a b).sum).re := by
  induction l generalizing d with
  | nil => simp
  | cons o l ih =>
    rw [List.foldl_cons, ih, List.map_cons, List.sum_cons, Complex.add_re]
    unfold single
    split
    · ring
    · simp

/-- C78: the sparse matrices are the real part of the coupling of the supercell for `q = k = 0`. -/
theorem C78_sparse (N1 N2 N3 : V3) (hD : detSpec N1 N2 N3 ≠ 0) (s : Supercell)
    (hs : Verif.Lattice.supercell N1 N2 N3 = some s) (c : Coupling X O) (hg : Function.Injective c.Rg)
    (hk : Function.Injective c.Rk) (c' : Coupling (Nat × X) (Nat × O)) (h : supercell s c = some c')
    (gs : Nat × X → Nat × O → Nat × O → ℝ) (h' : sparseSupercell s c = some gs) (x : Nat × X) (a b : Nat × O) :
    gs x a b = (fourier c' (fun _ => 0) (fun _ => 0) x a b).re := by
  have hp : ∀ R, phase R (fun _ => 0) = 1 := by
    intro R
    simp [phase]
  unfold sparseSupercell at h'
  rw [blocks_eq hD hs, Option.map_some, Option.some.injEq] at h'
  rw [← h', sparse_fold, fourier_eq, supercell_wsum hD hs c hg hk c' h, sum_blks]
  simp [weight, hp]

/-- The methods do not fail for linearly independent supercell vectors. -/
theorem C78_defined (N1 N2 N3 : V3) (hD : detSpec N1 N2 N3 ≠ 0) (s : Supercell)
    (hs : Verif.Lattice.supercell N1 N2 N3 = some s) (c : Coupling X O) :
    (∃ c', supercell s c = some c') ∧ ∃ gs, sparseSupercell s c = some gs := by
  unfold supercell sparseSupercell
  rw [blocks_eq hD hs]
  exact ⟨⟨_, rfl⟩, _, rfl⟩

/-- Supercell with two cells and a coupling of two cells. -/
example : ∃ s c', Verif.Lattice.supercell (2, 0, 0) (0, 1, 0) (0, 0, 1) = some s ∧ supercell s hop2 = some c' ∧
    s.cells.length = 2 := by
  have hD : detSpec (2, 0, 0) (0, 1, 0) (0, 0, 1) ≠ 0 := by decide
  have hs : ∃ s, Verif.Lattice.supercell (2, 0, 0) (0, 1, 0) (0, 0, 1) = some s ∧ s.cells.length = 2 :=
    ⟨_, rfl, by decide⟩
  obtain ⟨s, hs, hl⟩ := hs
  obtain ⟨⟨c', h⟩, -⟩ := C78_defined _ _ _ hD s hs hop2
  exact ⟨s, c', hs, h, hl⟩

example : Function.Injective hop2.Rg ∧ Function.Injective hop2.Rk := by
  constructor
  · intro a b _
    exact Subsingleton.elim (α := Fin 1) a b
  · have : ∀ a b : Fin 3, (![(0, 0, 0), (1, 0, 0), (-1, 0, 0)] : Fin 3 → V3) a =
        (![(0, 0, 0), (1, 0, 0), (-1, 0, 0)] : Fin 3 → V3) b → a = b := by decide
    exact this

end Verif.ElPh
