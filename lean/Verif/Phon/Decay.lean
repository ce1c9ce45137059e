import Verif.Fourier.Props
import Verif.TB.Standardize

/-!
# Decay of matrix elements: `ph.Model.decay`, `elph.Model.decay_epmate`, `elph.Model.decay_epmatp` and `el.decayH`
-/

namespace Verif.Phon.Decay

open Verif.Voronoi Verif.Fourier

variable {n : Nat}

/-! ### Phonons -/

/-- `elphmod/bravais.py` 1296-1314: the array `wslen`, with shortest bond lengths for the selected lattice vectors, zero otherwise. -/
noncomputable def wsLen (n1 n2 n3 : Nat) (at' : Fin 3 → Fin 3 → ℝ) (tau : Fin n → Fin 3 → ℝ) (sgn : Int) (nsc : Nat)
    (e : V3 × (Fin n → Fin n → Nat)) (i j : Fin n) : ℝ :=
  if e.2 i j = 0 then 0
  else (minOf (bondLength at' (tau i) (tau j)) (copies sgn ((n1 : Int), (n2 : Int), (n3 : Int)) nsc (meshIndex sgn n1 n2 n3 e.1))).getD 0

/-- `elphmod/ph.py` 1962, 314 and `elphmod/bravais.py` 1409: lengths `ph.l` for the lattice vectors in `ph.R`. -/
noncomputable def lengths (size n1 n2 n3 : Nat) (at' : Fin 3 → Fin 3 → ℝ) (r : Fin n → Fin 3 → ℝ) : List (Fin n → Fin n → ℝ) :=
  (wigner size n1 n2 n3 at' r r (1e-7) (-1) 2).map (wsLen n1 n2 n3 at' r (-1) 2)

/-- `array.flatten()` for an array with one index for lattice vectors and two for atoms. -/
def flatten {α : Type} (l : List (Fin n → Fin n → α)) : List α := l.flatMap fun f => (List.finRange n).flatMap fun a => (List.finRange n).map fun b => f a b

/-- `np.linalg.norm(…, ord='fro', axis=(2, 4))` -/
noncomputable def frobenius (M : Fin n × Fin 3 → Fin n × Fin 3 → ℂ) (a b : Fin n) : ℝ := Real.sqrt (∑ x, ∑ y, ‖M (a, x) (b, y)‖ ^ 2)

/-- `elphmod/ph.py` 907-923 (`decay`). Indices of `l` may be out of bounds. -/
noncomputable def decay (l : List (Fin n → Fin n → ℝ)) (data : List (Fin n × Fin 3 → Fin n × Fin 3 → ℂ)) : Option (List (ℝ × ℝ)) :=
  open Classical in
  let l := flatten l
  let C := flatten (data.map frobenius)
  (C.zipIdx.filter fun c => decide (0 < c.1)).mapM fun c => (l[c.2]?).map fun d => (d, c.1)

/-- All bonds: blocks with pairs of atoms (specification). -/
def triples {X : Type} (xs : List X) : List (X × Fin n × Fin n) :=
  xs.flatMap fun x => (List.finRange n).flatMap fun a => (List.finRange n).map fun b => (x, a, b)

theorem flatten_map {X α : Type} (xs : List X) (f : X → Fin n → Fin n → α) :
    flatten (xs.map f) = (triples xs).map fun t => f t.1 t.2.1 t.2.2 := by
  unfold flatten triples
  rw [List.flatMap_map, List.map_flatMap]
  refine List.flatMap_congr fun x _ => ?_
  rw [List.map_flatMap]
  refine List.flatMap_congr fun a _ => ?_
  rw [List.map_map]
  rfl

theorem nonzero_zip {T : Type} (ts : List T) (φ ψ : T → ℝ) (pre : List ℝ) :
    open Classical in
    ((((ts.map ψ).zipIdx pre.length).filter fun c => decide (0 < c.1)).mapM fun c : ℝ × Nat =>
      ((pre ++ ts.map φ)[c.2]?).map fun d => (d, c.1)) = some ((ts.filter fun t => decide (0 < ψ t)).map fun t => (φ t, ψ t)) := by
  classical
  induction ts generalizing pre with
  | nil => rfl
  | cons t ts ih =>
    have ih := ih (pre ++ [φ t])
    rw [List.length_append, List.length_singleton, List.append_assoc, List.singleton_append] at ih
    rw [List.map_cons (f := ψ), List.zipIdx_cons, List.map_cons (f := φ)]
    by_cases h : 0 < ψ t
    · rw [List.filter_cons_of_pos (by simpa using h), List.filter_cons_of_pos (by simpa using h), List.mapM_cons, ih, List.map_cons]
      simp
    · rw [List.filter_cons_of_neg (by simpa using h), List.filter_cons_of_neg (by simpa using h)]
      exact ih

theorem decay_map {X : Type} (xs : List X) (f : X → Fin n → Fin n → ℝ) (g : X → Fin n × Fin 3 → Fin n × Fin 3 → ℂ) :
    open Classical in
    decay (xs.map f) (xs.map g) =
      some (((triples xs).filter fun t => decide (0 < frobenius (g t.1) t.2.1 t.2.2)).map fun t => (f t.1 t.2.1 t.2.2, frobenius (g t.1) t.2.1 t.2.2)) := by
  classical
  unfold decay
  rw [List.map_map, flatten_map xs f, flatten_map xs (frobenius ∘ g)]
  have := nonzero_zip (triples (n := n) xs) (fun t => f t.1 t.2.1 t.2.2) (fun t => frobenius (g t.1) t.2.1 t.2.2) []
  rw [List.length_nil, List.nil_append] at this
  exact this

theorem frobenius_pos (M : Fin n × Fin 3 → Fin n × Fin 3 → ℂ) (a b : Fin n) : 0 < frobenius M a b ↔ ∃ x y, M (a, x) (b, y) ≠ 0 := by
  unfold frobenius
  rw [Real.sqrt_pos]
  constructor
  · intro h
    by_contra hc
    push Not at hc
    simp [hc] at h
  · rintro ⟨x, y, h⟩
    have h1 : 0 < ‖M (a, x) (b, y)‖ ^ 2 := by
      have := norm_pos_iff.2 h
      positivity
    refine lt_of_lt_of_le h1 ?_
    refine le_trans ?_ (Finset.single_le_sum (f := fun x => ∑ y, ‖M (a, x) (b, y)‖ ^ 2) (fun _ _ => by positivity) (Finset.mem_univ x))
    exact Finset.single_le_sum (f := fun y => ‖M (a, x) (b, y)‖ ^ 2) (fun _ _ => by positivity) (Finset.mem_univ y)

theorem wsLen_near (size n1 n2 n3 : Nat) (at' : Fin 3 → Fin 3 → ℝ) (r : Fin n → Fin 3 → ℝ) (e : V3 × (Fin n → Fin n → Nat))
    (he : e ∈ wigner size n1 n2 n3 at' r r (1e-7) (-1) 2) (a b : Fin n) (h : e.2 a b ≠ 0) :
    |wsLen n1 n2 n3 at' r (-1) 2 e a b - bondLength at' (r a) (r b) e.1| < 1e-7 := by
  obtain ⟨m, hm, hc, hsel⟩ := C65_selection size n1 n2 n3 at' r r (1e-7) (by norm_num) (-1) (Or.inr rfl) 2 e.1 e.2 he
  have hm' : meshIndex (-1) n1 n2 n3 e.1 = m := (inClass_iff (-1) (Or.inr rfl) n1 n2 n3 m e.1 hm).1 hc
  obtain ⟨h1, h2⟩ := (hsel a b).1.1 h
  unfold wsLen
  rw [if_neg h, hm']
  have hmem := (mem_copies (-1) n1 n2 n3 2 m e.1).2 h1
  obtain ⟨x, hx, ⟨S, hS, hSx⟩, hmin⟩ := minOf_spec (bondLength at' (r a) (r b)) _ (List.ne_nil_of_mem hmem)
  rw [hx, Option.getD_some, abs_sub_comm, abs_lt]
  have h3 := hmin e.1 hmem
  have h4 := h2 S ((mem_copies (-1) n1 n2 n3 2 m S).1 hS)
  rw [hSx] at h4
  constructor
  · linarith
  · linarith

/-- Pairs of blocks and atoms with nonzero force constants (specification). -/
noncomputable def bonds (l : List (V3 × (Fin n × Fin 3 → Fin n × Fin 3 → ℂ))) :
    List ((V3 × (Fin n × Fin 3 → Fin n × Fin 3 → ℂ)) × Fin n × Fin n) :=
  open Classical in (triples l).filter fun t => decide (∃ x y, t.1.2 (t.2.1, x) (t.2.2, y) ≠ 0)

/-- C145: for a model from force constants or dynamical matrices, `decay` returns the length and the Frobenius norm for each bond with nonzero matrix, in
order, lengths up to the tolerance for bonds on the boundary of the Wigner-Seitz cell. -/
theorem C145_ph (size : Nat) (hsize : 0 < size) (n1 n2 n3 : Nat) (at' : Fin 3 → Fin 3 → ℝ) (r : Fin n → Fin 3 → ℝ) (M : Fin n → ℝ)
    (divideMass phDivideMass : Bool) (D : V3 → Fin n × Fin 3 → Fin n × Fin 3 → ℂ) :
    ∃ l out, phQ2r size n1 n2 n3 at' r M divideMass phDivideMass true D = some l ∧ decay (lengths size n1 n2 n3 at' r) (l.map Prod.snd) = some out ∧
      List.Forall₂ (fun o t => |o.1 - bondLength at' (r t.2.1) (r t.2.2) t.1.1| < 1e-7 ∧
        o.2 = Real.sqrt (∑ x, ∑ y, ‖t.1.2 (t.2.1, x) (t.2.2, y)‖ ^ 2)) out (bonds l) := by
  classical
  set ws := wigner size n1 n2 n3 at' r r (1e-7) (-1) 2 with hws
  set F : V3 × (Fin n → Fin n → Nat) → V3 × (Fin n × Fin 3 → Fin n × Fin 3 → ℂ) := fun e =>
    ((constBlock (-1) n1 n2 n3 true (phid n1 n2 n3 divideMass M D) e).1,
      if phDivideMass then byMass M (constBlock (-1) n1 n2 n3 true (phid n1 n2 n3 divideMass M D) e).2
      else (constBlock (-1) n1 n2 n3 true (phid n1 n2 n3 divideMass M D) e).2) with hF
  have hz : ∀ e a b, e.2 a b = 0 → ∀ x y, (F e).2 (a, x) (b, y) = 0 := by
    intro e a b h x y
    rw [hF]
    cases phDivideMass <;> simp [constBlock, byMass, h]
  have hl : phQ2r size n1 n2 n3 at' r M divideMass phDivideMass true D = some (ws.map F) := by
    unfold phQ2r shortRange
    rw [Verif.MPI.C02_parMap size hsize, Option.map_some, List.map_map]
    rfl
  refine ⟨_, ((triples ws).filter fun t => decide (0 < frobenius ((F t.1).2) t.2.1 t.2.2)).map fun t =>
    (wsLen n1 n2 n3 at' r (-1) 2 t.1 t.2.1 t.2.2, frobenius ((F t.1).2) t.2.1 t.2.2), hl, ?_, ?_⟩
  · rw [lengths, List.map_map]
    exact decay_map ws (wsLen n1 n2 n3 at' r (-1) 2) (Prod.snd ∘ F)
  · have hb : bonds (ws.map F) = ((triples ws).filter fun t => decide (0 < frobenius ((F t.1).2) t.2.1 t.2.2)).map fun t => (F t.1, t.2) := by
      unfold bonds
      have ht : triples (n := n) (ws.map F) = (triples ws).map fun t => (F t.1, t.2) := by
        unfold triples
        rw [List.flatMap_map, List.map_flatMap]
        refine List.flatMap_congr fun x _ => ?_
        rw [List.map_flatMap]
        refine List.flatMap_congr fun a _ => ?_
        rw [List.map_map]
        rfl
      rw [ht, List.filter_map]
      congr 1
      refine List.filter_congr fun t _ => ?_
      simp only [Function.comp, frobenius_pos]
    rw [hb, List.forall₂_map_left_iff, List.forall₂_map_right_iff, List.forall₂_same]
    intro t ht
    rw [List.mem_filter, decide_eq_true_eq, frobenius_pos] at ht
    obtain ⟨ht, x, y, hxy⟩ := ht
    have hmem : t.1 ∈ ws := by
      unfold triples at ht
      obtain ⟨e, he, h⟩ := List.mem_flatMap.1 ht
      obtain ⟨a, -, h⟩ := List.mem_flatMap.1 h
      obtain ⟨b, -, rfl⟩ := List.mem_map.1 h
      exact he
    refine ⟨?_, rfl⟩
    exact wsLen_near size n1 n2 n3 at' r t.1 hmem t.2.1 t.2.2 fun h => hxy (hz t.1 _ _ h x y)

example (D : V3 → Fin 2 × Fin 3 → Fin 2 × Fin 3 → ℂ) :=
  C145_ph 3 (by norm_num) 4 4 1 (fun x y => if x = y then 5 else 0) (fun a _ => if a = 0 then 0 else 1) (fun _ => 2) true true D

theorem standardize_pair {α : Type} [Fintype α] (R R' : V3) (M M' : α → α → ℝ) (hR : Verif.TB.lexLe R R' = false)
    (hM : ∃ a b, M a b ≠ 0) (hM' : ∃ a b, M' a b ≠ 0) : Verif.TB.phStandardize 0 false [(R, M), (R', M')] = [(R', M'), (R, M)] := by
  have hne : R' ≠ R := by
    rintro rfl
    have := Verif.TB.lexLe_total R' R'
    rw [hR] at this
    simp at this
  have hM1 : ∃ a b, ((R, M) : V3 × (α → α → ℝ)).2 a b ≠ 0 := hM
  have hM2 : ∃ a b, ((R', M') : V3 × (α → α → ℝ)).2 a b ≠ 0 := hM'
  have e1 : Verif.TB.addTo ([] : Verif.TB.Blocks α ℝ) R M = [(R, M)] := by
    unfold Verif.TB.addTo
    rw [if_neg (by simp)]
    rfl
  have e2 : Verif.TB.addTo [(R, M)] R' M' = [(R, M), (R', M')] := by
    unfold Verif.TB.addTo
    rw [if_neg (by simpa using hne)]
    rfl
  unfold Verif.TB.phStandardize Verif.TB.collect
  rw [Verif.TB.threshold_zero]
  simp only [List.foldl_cons, List.foldl_nil, Verif.TB.standardizeStep, Bool.false_eq_true, if_false]
  rw [if_pos hM', if_pos hM, e1, e2]
  unfold Verif.TB.sortDict
  have e3 : ([(R, M), (R', M')].map Prod.fst).mergeSort Verif.TB.lexLe = [R', R] := by
    simp [List.mergeSort, List.MergeSort.Internal.splitInTwo, List.merge, hR]
  rw [e3]
  simp [Verif.TB.get, hne, hne.symm]

/-- C145 fails after `standardize`, which sorts lattice vectors and force constants but not the lengths: those of two lattice vectors in descending order
are swapped. -/
theorem C145_standardize_violated (R R' : V3) (M M' : Fin 1 × Fin 3 → Fin 1 × Fin 3 → ℝ) (hR : Verif.TB.lexLe R R' = false)
    (hM : ∃ a b, M a b ≠ 0) (hM' : ∃ a b, M' a b ≠ 0) (d d' : ℝ) :
    decay [fun _ _ => d, fun _ _ => d']
        ((Verif.TB.phStandardize 0 false [(R, M), (R', M')]).map fun e => fun x y => ((e.2 x y : ℝ) : ℂ)) =
      some [(d, Real.sqrt (∑ x, ∑ y, M' (0, x) (0, y) ^ 2)), (d', Real.sqrt (∑ x, ∑ y, M (0, x) (0, y) ^ 2))] := by
  classical
  rw [standardize_pair R R' M M' hR hM hM']
  have := decay_map (n := 1) [((fun _ _ => d : Fin 1 → Fin 1 → ℝ), fun x y => ((M' x y : ℝ) : ℂ)), (fun _ _ => d', fun x y => ((M x y : ℝ) : ℂ))]
    (fun e => e.1) fun e => e.2
  simp only [List.map_cons, List.map_nil] at this ⊢
  rw [this]
  have h1 : 0 < frobenius (fun x y => ((M x y : ℝ) : ℂ)) (0 : Fin 1) 0 := by
    rw [frobenius_pos]
    obtain ⟨⟨a, x⟩, ⟨b, y⟩, h⟩ := hM
    refine ⟨x, y, ?_⟩
    rw [Subsingleton.elim a 0, Subsingleton.elim b 0] at h
    exact_mod_cast h
  have h2 : 0 < frobenius (fun x y => ((M' x y : ℝ) : ℂ)) (0 : Fin 1) 0 := by
    rw [frobenius_pos]
    obtain ⟨⟨a, x⟩, ⟨b, y⟩, h⟩ := hM'
    refine ⟨x, y, ?_⟩
    rw [Subsingleton.elim a 0, Subsingleton.elim b 0] at h
    exact_mod_cast h
  have ht : triples (n := 1) [((fun _ _ => d : Fin 1 → Fin 1 → ℝ), fun x y => ((M' x y : ℝ) : ℂ)), (fun _ _ => d', fun x y => ((M x y : ℝ) : ℂ))] =
      [((fun _ _ => d, fun x y => ((M' x y : ℝ) : ℂ)), 0, 0), ((fun _ _ => d', fun x y => ((M x y : ℝ) : ℂ)), 0, 0)] := rfl
  rw [ht, List.filter_cons_of_pos (by simpa only [decide_eq_true_eq] using h2), List.filter_cons_of_pos (by simpa only [decide_eq_true_eq] using h1)]
  simp [Complex.norm_real, frobenius]

example (d d' : ℝ) := C145_standardize_violated (1, 0, 0) (0, 0, 0) (fun _ _ => 2) (fun _ _ => 3) (by decide)
  ⟨(0, 0), (0, 0), by norm_num⟩ ⟨(0, 0), (0, 0), by norm_num⟩ d d'

/-! ### Coupling and electrons -/

/-- `np.linalg.norm(R.dot(a), axis=1) * elphmod.misc.a0` -/
noncomputable def distance (a : Fin 3 → Fin 3 → ℝ) (a0 : ℝ) (R : V3) : ℝ :=
  Real.sqrt (∑ x, ((R.1 : ℝ) * a 0 x + (R.2.1 : ℝ) * a 1 x + (R.2.2 : ℝ) * a 2 x) ^ 2) * a0

/-- `elphmod/elph.py` 713-730 (`decay_epmate`) for the array `data`; `Rk` has `nk` elements. -/
noncomputable def decayEpmate {X O : Type} [Fintype X] [Fintype O] {ng nk : Nat} (a : Fin 3 → Fin 3 → ℝ) (a0 : ℝ) (Rk : Fin nk → V3)
    (data : Fin ng → X → Fin nk → O → O → ℂ) : List (ℝ × ℝ) :=
  open Classical in
  (((List.finRange nk).map fun k => (distance a a0 (Rk k),
    (((Finset.univ : Finset (Fin ng × X × O × O)).sup fun i => ‖data i.1 i.2.1 k i.2.2.1 i.2.2.2‖₊ : NNReal) : ℝ))).filter
      fun e => decide (0 < e.2))

/-- `elphmod/elph.py` 732-749 (`decay_epmatp`) for the array `data`; `Rg` has `ng` elements. -/
noncomputable def decayEpmatp {X O : Type} [Fintype X] [Fintype O] {ng nk : Nat} (a : Fin 3 → Fin 3 → ℝ) (a0 : ℝ) (Rg : Fin ng → V3)
    (data : Fin ng → X → Fin nk → O → O → ℂ) : List (ℝ × ℝ) :=
  open Classical in
  (((List.finRange ng).map fun g => (distance a a0 (Rg g),
    (((Finset.univ : Finset (X × Fin nk × O × O)).sup fun i => ‖data g i.1 i.2.1 i.2.2.1 i.2.2.2‖₊ : NNReal) : ℝ))).filter
      fun e => decide (0 < e.2))

/-- `elphmod/el.py` 1650-1692 (`decayH`) for lattice vectors and matrices `l` of the model. -/
noncomputable def decayH {O : Type} [Fintype O] (b : Fin 3 → Fin 3 → ℝ) (Ry : ℝ) (l : List (V3 × (O → O → ℂ))) : List (ℝ × ℝ) :=
  l.map fun e => (Real.sqrt (∑ x, ((e.1.1 : ℝ) * b 0 x + (e.1.2.1 : ℝ) * b 1 x + (e.1.2.2 : ℝ) * b 2 x) ^ 2),
    (((Finset.univ : Finset (O × O)).sup fun i => ‖e.2 i.1 i.2‖₊ : NNReal) : ℝ) / Ry)

/-- The number `m` is the maximum of the absolute values (specification). -/
def IsMax {ι : Type} (f : ι → ℂ) (m : ℝ) : Prop := (∀ i, ‖f i‖ ≤ m) ∧ ∃ i, ‖f i‖ = m

theorem isMax_sup {ι : Type} [Fintype ι] [Nonempty ι] (f : ι → ℂ) :
    IsMax f ((((Finset.univ : Finset ι).sup fun i => ‖f i‖₊ : NNReal) : ℝ)) := by
  constructor
  · intro i
    exact_mod_cast Finset.le_sup (f := fun i => ‖f i‖₊) (Finset.mem_univ i)
  · obtain ⟨i, -, h⟩ := Finset.exists_mem_eq_sup Finset.univ Finset.univ_nonempty fun i => ‖f i‖₊
    refine ⟨i, ?_⟩
    rw [h]
    rfl

theorem isMax_pos {ι : Type} (f : ι → ℂ) (m : ℝ) (h : IsMax f m) : 0 < m ↔ ∃ i, f i ≠ 0 := by
  constructor
  · intro hm
    obtain ⟨i, hi⟩ := h.2
    refine ⟨i, fun h0 => ?_⟩
    rw [h0, norm_zero] at hi
    linarith
  · rintro ⟨i, hi⟩
    exact lt_of_lt_of_le (norm_pos_iff.2 hi) (h.1 i)

theorem filter_forall₂ {ι : Type} {n : Nat} (f : Fin n → ι → ℂ) (d m : Fin n → ℝ) (h : ∀ k, IsMax (f k) (m k)) :
    open Classical in
    List.Forall₂ (fun (e : ℝ × ℝ) k => e.1 = d k ∧ IsMax (f k) e.2) (((List.finRange n).map fun k => (d k, m k)).filter fun e => decide (0 < e.2))
      ((List.finRange n).filter fun k => decide (∃ i, f k i ≠ 0)) := by
  classical
  rw [List.filter_map, List.forall₂_map_left_iff]
  have : ((List.finRange n).filter fun k => decide (∃ i, f k i ≠ 0)) =
      (List.finRange n).filter ((fun e : ℝ × ℝ => decide (0 < e.2)) ∘ fun k => (d k, m k)) := by
    refine List.filter_congr fun k _ => ?_
    simp only [Function.comp, isMax_pos (f k) (m k) (h k)]
  rw [this, List.forall₂_same]
  exact fun k _ => ⟨rfl, h k⟩

/-- C145: `decay_epmate` returns the distance in angstrom and the maximum absolute matrix element for each lattice vector of hoppings with nonzero
elements, in order. -/
theorem C145_epmate {X O : Type} [Fintype X] [Fintype O] [Nonempty X] [Nonempty O] {ng nk : Nat} (hng : 0 < ng) (a : Fin 3 → Fin 3 → ℝ) (a0 : ℝ)
    (Rk : Fin nk → V3) (data : Fin ng → X → Fin nk → O → O → ℂ) :
    open Classical in
    List.Forall₂ (fun e k => e.1 = Real.sqrt (∑ x, (((Rk k).1 : ℝ) * a 0 x + ((Rk k).2.1 : ℝ) * a 1 x + ((Rk k).2.2 : ℝ) * a 2 x) ^ 2) * a0 ∧
        IsMax (fun i : Fin ng × X × O × O => data i.1 i.2.1 k i.2.2.1 i.2.2.2) e.2) (decayEpmate a a0 Rk data)
      ((List.finRange nk).filter fun k => decide (∃ i : Fin ng × X × O × O, data i.1 i.2.1 k i.2.2.1 i.2.2.2 ≠ 0)) := by
  haveI : Nonempty (Fin ng) := ⟨⟨0, hng⟩⟩
  convert filter_forall₂ (fun k (i : Fin ng × X × O × O) => data i.1 i.2.1 k i.2.2.1 i.2.2.2) (fun k => distance a a0 (Rk k)) _ fun k => isMax_sup _ using 1 <;> first | rfl | (congr 1; funext k; congr)

/-- C145: `decay_epmatp` returns the same for each lattice vector of displacements. -/
theorem C145_epmatp {X O : Type} [Fintype X] [Fintype O] [Nonempty X] [Nonempty O] {ng nk : Nat} (hnk : 0 < nk) (a : Fin 3 → Fin 3 → ℝ) (a0 : ℝ)
    (Rg : Fin ng → V3) (data : Fin ng → X → Fin nk → O → O → ℂ) :
    open Classical in
    List.Forall₂ (fun e g => e.1 = Real.sqrt (∑ x, (((Rg g).1 : ℝ) * a 0 x + ((Rg g).2.1 : ℝ) * a 1 x + ((Rg g).2.2 : ℝ) * a 2 x) ^ 2) * a0 ∧
        IsMax (fun i : X × Fin nk × O × O => data g i.1 i.2.1 i.2.2.1 i.2.2.2) e.2) (decayEpmatp a a0 Rg data)
      ((List.finRange ng).filter fun g => decide (∃ i : X × Fin nk × O × O, data g i.1 i.2.1 i.2.2.1 i.2.2.2 ≠ 0)) := by
  haveI : Nonempty (Fin nk) := ⟨⟨0, hnk⟩⟩
  convert filter_forall₂ (fun g (i : X × Fin nk × O × O) => data g i.1 i.2.1 i.2.2.1 i.2.2.2) (fun g => distance a a0 (Rg g)) _ fun g => isMax_sup _ using 1 <;> first | rfl | (congr 1; funext k; congr)

/-- C145: `decayH` returns the distance and the maximum absolute matrix element in rydberg for each lattice vector, including those without hopping. -/
theorem C145_decayH {O : Type} [Fintype O] [Nonempty O] (b : Fin 3 → Fin 3 → ℝ) (Ry : ℝ) (hRy : 0 < Ry) (l : List (V3 × (O → O → ℂ))) :
    List.Forall₂ (fun e p => e.1 = Real.sqrt (∑ x, ((p.1.1 : ℝ) * b 0 x + (p.1.2.1 : ℝ) * b 1 x + (p.1.2.2 : ℝ) * b 2 x) ^ 2) ∧
      IsMax (fun i : O × O => p.2 i.1 i.2 / (Ry : ℂ)) e.2) (decayH b Ry l) l := by
  unfold decayH
  rw [List.forall₂_map_left_iff, List.forall₂_same]
  intro p _
  refine ⟨rfl, ?_⟩
  obtain ⟨h1, i, h2⟩ := isMax_sup fun i : O × O => p.2 i.1 i.2
  have hn : ‖(Ry : ℂ)‖ = Ry := by rw [Complex.norm_real, Real.norm_of_nonneg hRy.le]
  constructor
  · intro i
    rw [norm_div, hn]
    exact div_le_div_of_nonneg_right (h1 i) hRy.le
  · refine ⟨i, ?_⟩
    rw [norm_div, hn, h2]

example (data : Fin 2 → Fin 3 → Fin 5 → Fin 2 → Fin 2 → ℂ) := C145_epmate (by norm_num) (fun x y => if x = y then 3 else 0) 0.529 (fun k => (k, 0, 0)) data

example (data : Fin 2 → Fin 3 → Fin 5 → Fin 2 → Fin 2 → ℂ) := C145_epmatp (by norm_num) (fun x y => if x = y then 3 else 0) 0.529 (fun g => (g, 0, 0)) data

example := C145_decayH (O := Fin 1) (fun x y => if x = y then 3 else 0) 2 (by norm_num) [((1, 0, 0), fun _ _ => 4), ((0, 2, 0), fun _ _ => 0)]

end Verif.Phon.Decay
