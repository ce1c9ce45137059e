import Verif.ElPh.Model
import Verif.TB.Standardize
import Mathlib.Tactic.LinearCombination
import Mathlib.Tactic.Linarith
import Mathlib.Tactic.FieldSimp

/-!
# Electron-phonon coupling: cache (C47), standardization (C73), acoustic sum rule (C45)
-/

namespace Verif.ElPh

open Verif.Lattice (V3 vadd vsub)
open Verif.Fourier (phase)
open Verif.TB (vneg)

variable {X O : Type} [DecidableEq O]

/-! ### C47 -/

/-- Specification: the coupling for wave vectors `q` and `k` in the documentation of `Model`: Fourier transform with
respect to both lattice vectors. -/
noncomputable def fourier (c : Coupling X O) (q k : Fin 3 → ℝ) (x : X) (a b : O) : ℂ :=
  ∑ i, ∑ j, c.data i x j a b * phase (c.Rg i) q * phase (c.Rk j) k

/-- Specification: total coupling of the object, long-range terms are diagonal and do not depend on `k`. -/
noncomputable def total (s : State X O) (q k : Fin 3 → ℝ) (x : X) (a b : O) : ℂ :=
  fourier s.c q k x a b + match s.lr with
  | none => 0
  | some f => if a = b then f q x else 0

/-- The index of the origin is known if there are long-range terms. -/
def Origin (s : State X O) : Prop := s.lr ≠ none → ∃ r, s.Rk0 = some r ∧ s.c.Rk r = (0, 0, 0)

/-- The cache holds what it is supposed to hold. -/
def Valid (s : State X O) : Prop := ∀ q, s.q = some q → s.gq = calcGq s q

theorem sum_calcGq (s : State X O) (ho : Origin s) (q k : Fin 3 → ℝ) (x : X) (a b : O) :
    ∑ R, calcGq s q x R a b * phase (s.c.Rk R) k = total s q k x a b := by
  unfold calcGq total fourier
  simp only [add_mul, Finset.sum_add_distrib]
  congr 1
  · rw [Finset.sum_comm]
    refine Finset.sum_congr rfl fun j _ => ?_
    rw [Finset.sum_mul]
  · cases h : s.lr with
    | none => simp
    | some f =>
      obtain ⟨r, hr, h0⟩ := ho (by rw [h]; exact Option.some_ne_none f)
      simp only [hr, Option.some.injEq]
      rw [Finset.sum_eq_single r]
      · rw [h0]
        have : phase (0, 0, 0) k = 1 := by simp [phase]
        rw [this, mul_one]
        simp
      · intro r' _ h'
        rw [if_neg fun h => h' h.1.symm, zero_mul]
      · simp

/-- Methods of the object. -/
inductive Op (X O : Type) where
  | g (q k : Fin 3 → ℝ)
  | standardize (symmetrize : Bool) (junk : (n : Nat) → X → Fin n → O → O → ℂ)

/-- State after a method, `none` for an exception. -/
noncomputable def Op.run (s : State X O) : Op X O → Option (State X O)
  | .g q k => some (ElPh.g s q k).1
  | .standardize sym junk => s.standardize sym junk

/-- States reachable by a sequence of methods. -/
inductive Reachable (s : State X O) : State X O → Prop
  | refl : Reachable s s
  | step {t u : State X O} (o : Op X O) : Reachable s t → o.run t = some u → Reachable s u

theorem g_result (s : State X O) (ho : Origin s) (q k : Fin 3 → ℝ) (h : s.q ≠ some q ∨ Valid s) :
    (g s q k).2 = total s q k := by
  funext x a b
  rw [← sum_calcGq s ho q k x a b]
  unfold g refresh
  by_cases hq : s.q = none ∨ s.q ≠ some q
  · simp only [if_pos hq]
  · simp only [if_neg hq]
    push Not at hq
    rcases h with h | h
    · exact absurd hq.2 h
    · rw [h q hq.2]

theorem g_valid (s : State X O) (q k : Fin 3 → ℝ) (hv : Valid s) : Valid (g s q k).1 := by
  intro q' hq'
  have : q = q' := by simpa [g, refresh] using hq'
  subst this
  change (refresh s q).gq = calcGq s q
  unfold refresh
  by_cases hq : s.q = none ∨ s.q ≠ some q
  · simp only [if_pos hq]
  · simp only [if_neg hq]
    push Not at hq
    exact hv q hq.2

theorem vectorIndex_some {n : Nat} (R : Fin n → V3) (r : V3) (i : Fin n) (h : R i = r) :
    ∃ j, vectorIndex R r = some j ∧ R j = r := by
  unfold vectorIndex
  cases hf : (List.finRange n).find? fun i => decide (R i = r) with
  | none =>
    rw [List.find?_eq_none] at hf
    exact absurd h (by simpa using hf i (List.mem_finRange i))
  | some j =>
    have := List.find?_some hf
    exact ⟨j, rfl, by simpa using this⟩

/-! ### C73: dictionaries -/

/-- Weighted sum of the matrices. -/
noncomputable def wsum (w : V3 × V3 → ℂ) (d : Dict X O) (x : X) (a b : O) : ℂ := (d.map fun e => w e.1 * e.2 x a b).sum

omit [DecidableEq O]

theorem addTo_keys (d : Dict X O) (R : V3 × V3) (M : X → O → O → ℂ) :
    (addTo d R M).map Prod.fst = if R ∈ d.map Prod.fst then d.map Prod.fst else d.map Prod.fst ++ [R] := by
  unfold addTo
  split
  · rw [List.map_map]
    apply List.map_congr_left
    intro e _
    simp only [Function.comp]
    split <;> rfl
  · simp

theorem addTo_nodup (d : Dict X O) (R : V3 × V3) (M : X → O → O → ℂ) (h : (d.map Prod.fst).Nodup) :
    ((addTo d R M).map Prod.fst).Nodup := by
  rw [addTo_keys]
  split
  · exact h
  · rename_i hR
    rw [List.nodup_append]
    refine ⟨h, List.nodup_singleton _, ?_⟩
    intro a ha b hb hab
    rw [List.mem_singleton] at hb
    exact hR (hb ▸ hab ▸ ha)

theorem mem_addTo_keys (d : Dict X O) (R : V3 × V3) (M : X → O → O → ℂ) (S : V3 × V3) :
    S ∈ (addTo d R M).map Prod.fst ↔ S ∈ d.map Prod.fst ∨ S = R := by
  rw [addTo_keys]
  split
  · rename_i h
    constructor
    · exact Or.inl
    · rintro (h' | rfl)
      · exact h'
      · exact h
  · rw [List.mem_append, List.mem_singleton]

theorem wsum_addTo (w : V3 × V3 → ℂ) (d : Dict X O) (R : V3 × V3) (M : X → O → O → ℂ) (h : (d.map Prod.fst).Nodup)
    (x : X) (a b : O) : wsum w (addTo d R M) x a b = wsum w d x a b + w R * M x a b := by
  unfold addTo
  split
  · rename_i hR
    unfold wsum
    rw [List.map_map]
    induction d with
    | nil => simp at hR
    | cons e d ih =>
      rw [List.map_cons, List.nodup_cons] at h
      simp only [List.map_cons, List.sum_cons, Function.comp]
      by_cases he : e.1 = R
      · have h0 : d.map ((fun e : (V3 × V3) × (X → O → O → ℂ) => w e.1 * e.2 x a b) ∘ fun e =>
            if e.1 = R then (e.1, fun x a b => e.2 x a b + M x a b) else e) = d.map fun e => w e.1 * e.2 x a b := by
          apply List.map_congr_left
          intro e' he'
          simp only [Function.comp]
          rw [if_neg]
          intro h'
          exact h.1 (he ▸ h' ▸ List.mem_map_of_mem he')
        rw [if_pos he]
        simp only [h0, he]
        ring
      · rw [if_neg he]
        rw [List.map_cons, List.mem_cons] at hR
        have := ih h.2 (hR.resolve_left fun h => he h.symm)
        rw [this]
        ring
  · unfold wsum
    simp

theorem wsum_stdStep (w : V3 × V3 → ℂ) (sym : Bool) (d : Dict X O) (e : (V3 × V3) × (X → O → O → ℂ))
    (h : (d.map Prod.fst).Nodup) (x : X) (a b : O) :
    wsum w (stdStep sym d e) x a b = wsum w d x a b + w e.1 * e.2 x a b +
      if sym then w (vsub e.1.1 e.1.2, vneg e.1.2) * star (e.2 x b a) else 0 := by
  unfold stdStep
  by_cases hz : ∃ x a b, e.2 x a b ≠ 0
  · rw [if_pos hz]
    cases sym
    · simp [wsum_addTo w d _ _ h]
    · simp only [if_true]
      rw [wsum_addTo w _ _ _ (addTo_nodup d _ _ h), wsum_addTo w d _ _ h]
  · rw [if_neg hz]
    push Not at hz
    rw [hz x a b, hz x b a]
    simp

theorem stdStep_nodup (sym : Bool) (d : Dict X O) (e : (V3 × V3) × (X → O → O → ℂ)) (h : (d.map Prod.fst).Nodup) :
    ((stdStep sym d e).map Prod.fst).Nodup := by
  unfold stdStep
  split
  · cases sym
    · exact addTo_nodup d _ _ h
    · exact addTo_nodup _ _ _ (addTo_nodup d _ _ h)
  · exact h

theorem stdFold_nodup (sym : Bool) (l d : Dict X O) (h : (d.map Prod.fst).Nodup) :
    ((l.foldl (stdStep sym) d).map Prod.fst).Nodup := by
  induction l generalizing d with
  | nil => exact h
  | cons e l ih => exact ih _ (stdStep_nodup sym d e h)

theorem wsum_stdFold (w : V3 × V3 → ℂ) (sym : Bool) (l d : Dict X O) (h : (d.map Prod.fst).Nodup)
    (x : X) (a b : O) :
    wsum w (l.foldl (stdStep sym) d) x a b = wsum w d x a b + wsum w l x a b +
      if sym then star (wsum (fun R => star (w (vsub R.1 R.2, vneg R.2))) l x b a) else 0 := by
  induction l generalizing d with
  | nil => simp [wsum]
  | cons e l ih =>
    rw [List.foldl_cons, ih _ (stdStep_nodup sym d e h), wsum_stdStep w sym d e h]
    cases sym
    · simp only [wsum, Bool.false_eq_true, if_false, List.map_cons, List.sum_cons]
      ring
    · simp only [wsum, if_true, List.map_cons, List.sum_cons, star_add, star_mul', star_star]
      ring

theorem wsum_pairs (w : V3 × V3 → ℂ) (c : Coupling X O) (x : X) (a b : O) :
    wsum w (pairs c) x a b = ∑ i, ∑ j, w (c.Rg i, c.Rk j) * c.data i x j a b := by
  unfold wsum pairs
  rw [List.map_flatMap, Verif.Fourier.sum_flatMap']
  simp only [List.map_map]
  rw [← List.sum_ofFn, List.ofFn_eq_map]
  simp only [← List.sum_ofFn, List.ofFn_eq_map]
  rfl

theorem sum_ite_nodup {β : Type} [DecidableEq β] (l : List β) (h : l.Nodup) (r : β) (hr : r ∈ l) (f : β → ℂ) :
    (l.map fun s => if s = r then f s else 0).sum = f r := by
  induction l with
  | nil => simp at hr
  | cons s l ih =>
    rw [List.nodup_cons] at h
    rw [List.map_cons, List.sum_cons]
    rcases List.mem_cons.1 hr with rfl | hr
    · have : l.map (fun s => if s = r then f s else 0) = l.map fun _ => 0 := by
        apply List.map_congr_left
        intro t ht
        rw [if_neg]
        rintro rfl
        exact h.1 ht
      rw [this]
      simp
    · rw [ih h.2 hr, if_neg, zero_add]
      rintro rfl
      exact h.1 hr

theorem lookup_cons (e : (V3 × V3) × (X → O → O → ℂ)) (d : Dict X O) (R : V3 × V3) :
    lookup (e :: d) R = if e.1 = R then e.2 else lookup d R := by
  unfold lookup
  rw [List.find?_cons]
  by_cases h : e.1 = R
  · simp [h]
  · simp [h]

theorem lookup_of_notMem (d : Dict X O) (R : V3 × V3) (h : R ∉ d.map Prod.fst) : lookup d R = fun _ _ _ => 0 := by
  induction d with
  | nil => rfl
  | cons e d ih =>
    rw [List.map_cons, List.mem_cons] at h
    push Not at h
    rw [lookup_cons, if_neg h.1.symm, ih h.2]

theorem lookup_cons_add (e : (V3 × V3) × (X → O → O → ℂ)) (d : Dict X O) (h : ((e :: d).map Prod.fst).Nodup)
    (R : V3 × V3) (x : X) (a b : O) :
    lookup (e :: d) R x a b = (if R = e.1 then e.2 x a b else 0) + lookup d R x a b := by
  rw [List.map_cons, List.nodup_cons] at h
  rw [lookup_cons]
  by_cases he : e.1 = R
  · rw [if_pos he, if_pos he.symm, lookup_of_notMem d R (he ▸ h.1), add_zero]
  · rw [if_neg he, if_neg fun h => he h.symm, zero_add]

/-- Sum over all pairs of lattice vectors. -/
theorem sum_lookup (w : V3 × V3 → ℂ) (d : Dict X O) (h : (d.map Prod.fst).Nodup) (Rg Rk : List V3) (hg : Rg.Nodup)
    (hk : Rk.Nodup) (hd : ∀ e ∈ d, e.1.1 ∈ Rg ∧ e.1.2 ∈ Rk) (x : X) (a b : O) :
    ((Rg ×ˢ Rk).map fun R => w R * lookup d R x a b).sum = wsum w d x a b := by
  induction d with
  | nil =>
    simp [lookup, wsum]
  | cons e d ih =>
    have e1 : (Rg ×ˢ Rk).map (fun R => w R * lookup (e :: d) R x a b) =
        (Rg ×ˢ Rk).map fun R => (if R = e.1 then w R * e.2 x a b else 0) + w R * lookup d R x a b := by
      apply List.map_congr_left
      intro R _
      rw [lookup_cons_add e d h]
      split <;> ring
    rw [e1, List.sum_map_add]
    rw [List.map_cons, List.nodup_cons] at h
    rw [ih h.2 fun e he => hd e (List.mem_cons_of_mem _ he),
      sum_ite_nodup _ (hg.product hk) e.1 (List.mem_product.2 (hd e List.mem_cons_self)) fun R => w R * e.2 x a b]
    simp [wsum]

theorem nodup_sortedSet (l : List V3) : (sortedSet l).Nodup :=
  (List.mergeSort_perm _ _).nodup_iff.2 (List.nodup_dedup l)

theorem mem_sortedSet (l : List V3) (R : V3) : R ∈ sortedSet l ↔ R ∈ l := by
  unfold sortedSet
  rw [List.mem_mergeSort, List.mem_dedup]

theorem sum_get (l : List V3) (f : V3 → ℂ) : ∑ i : Fin l.length, f l[i] = (l.map f).sum := by
  rw [← List.sum_ofFn]
  congr 1
  apply List.ext_getElem
  · simp
  · intro i h1 h2
    simp

/-- Fourier transform of the arrays. -/
theorem sum_toArrays (w : V3 × V3 → ℂ) (sym : Bool) (d : Dict X O) (h : (d.map Prod.fst).Nodup) (Rg Rk : List V3)
    (hg : Rg.Nodup) (hk : Rk.Nodup) (hd : ∀ e ∈ d, e.1.1 ∈ Rg ∧ e.1.2 ∈ Rk) (x : X) (a b : O) :
    ∑ i, ∑ j, w ((toArrays sym d Rg Rk).Rg i, (toArrays sym d Rg Rk).Rk j) * (toArrays sym d Rg Rk).data i x j a b =
      wsum w d x a b / (if sym then 2 else 1) := by
  rw [← sum_lookup w d h Rg Rk hg hk hd]
  have e : ((Rg ×ˢ Rk).map fun R => w R * lookup d R x a b).sum =
      ∑ i : Fin Rg.length, ∑ j : Fin Rk.length, w (Rg[i], Rk[j]) * lookup d (Rg[i], Rk[j]) x a b := by
    rw [sum_get Rg fun R => ∑ j : Fin Rk.length, w (R, Rk[j]) * lookup d (R, Rk[j]) x a b]
    change ((Rg.flatMap fun R => Rk.map fun S => (R, S)).map _).sum = _
    rw [List.map_flatMap, Verif.Fourier.sum_flatMap']
    congr 1
    apply List.map_congr_left
    intro R _
    rw [sum_get Rk fun S => w (R, S) * lookup d (R, S) x a b, List.map_map]
    rfl
  rw [e, Finset.sum_div]
  refine Finset.sum_congr rfl fun i _ => ?_
  rw [Finset.sum_div]
  refine Finset.sum_congr rfl fun j _ => ?_
  unfold toArrays
  cases sym
  · simp
  · simp only [if_true]
    ring

/-- Weight of a pair of lattice vectors in the Fourier transform. -/
noncomputable def weight (q k : Fin 3 → ℝ) (R : V3 × V3) : ℂ := phase R.1 q * phase R.2 k

theorem fourier_eq (c : Coupling X O) (q k : Fin 3 → ℝ) (x : X) (a b : O) :
    fourier c q k x a b = ∑ i, ∑ j, weight q k (c.Rg i, c.Rk j) * c.data i x j a b := by
  unfold fourier weight
  refine Finset.sum_congr rfl fun i _ => Finset.sum_congr rfl fun j _ => ?_
  ring

theorem weight_adjoint (q k : Fin 3 → ℝ) (R : V3 × V3) :
    star (weight q k (vsub R.1 R.2, vneg R.2)) = weight (-q) (k + q) R := by
  have h1 : phase R.2 (k + q) = phase R.2 k * phase R.2 q := by
    unfold phase
    rw [← Complex.exp_add]
    congr 1
    simp only [Pi.add_apply]
    push_cast
    ring
  have h2 : phase R.1 (-q) = star (phase R.1 q) := Verif.TB.phase_neg R.1 q
  unfold weight
  simp only
  rw [star_mul', ← Verif.TB.star_phase, star_star, Verif.TB.phase_sub, star_mul', star_star, h1, h2]
  ring

/-- Whatever is returned, the Fourier transform is that of the original coupling, or of the original coupling plus its
adjoint over two. -/
theorem standardize_fourier (sym : Bool) (c c' : Coupling X O) (h : standardize sym c = some c') (q k : Fin 3 → ℝ)
    (x : X) (a b : O) :
    fourier c' q k x a b = if sym then (fourier c q k x a b + star (fourier c (-q) (k + q) x b a)) / 2
      else fourier c q k x a b := by
  unfold standardize at h
  simp only at h
  split at h
  · rw [Option.some.injEq] at h
    subst h
    have h0 : (([(((0, 0, 0), (0, 0, 0)), fun _ _ _ => 0)] : Dict X O).map Prod.fst).Nodup := List.nodup_singleton _
    have hn : ((stdDict sym c).map Prod.fst).Nodup := stdFold_nodup sym _ _ h0
    rw [fourier_eq, sum_toArrays (weight q k) sym _ hn _ _ (nodup_sortedSet _) (nodup_sortedSet _)]
    · unfold stdDict
      rw [wsum_stdFold _ _ _ _ h0, wsum_pairs, ← fourier_eq]
      cases sym
      · simp [wsum]
      · simp only [if_true, weight_adjoint]
        have e : wsum (fun R => weight (-q) (k + q) R) (pairs c) x b a = fourier c (-q) (k + q) x b a := by
          rw [fourier_eq, ← wsum_pairs]
        rw [e]
        simp [wsum]
    · intro e he
      rw [mem_sortedSet, mem_sortedSet]
      exact ⟨List.mem_map_of_mem he, List.mem_map_of_mem he⟩
  · simp at h

/-- C73: `standardize` does not change the coupling at any wave vectors. -/
theorem C73_fourier_partial (c c' : Coupling X O) (h : standardize false c = some c') (q k : Fin 3 → ℝ)
    (x : X) (a b : O) : fourier c' q k x a b = fourier c q k x a b := by
  rw [standardize_fourier false c c' h]
  rfl

/-- C73: `symmetrize` replaces the coupling by the mean of the coupling and its adjoint. -/
theorem C73_symmetrize_partial (c c' : Coupling X O) (h : standardize true c = some c') (q k : Fin 3 → ℝ)
    (x : X) (a b : O) :
    fourier c' q k x a b = (fourier c q k x a b + star (fourier c (-q) (k + q) x b a)) / 2 := by
  rw [standardize_fourier true c c' h]
  rfl

/-- C73: after `symmetrize`, the coupling satisfies the documented symmetry. -/
theorem C73_symmetric_partial (c c' : Coupling X O) (h : standardize true c = some c') (q k : Fin 3 → ℝ)
    (x : X) (a b : O) : fourier c' q k x a b = star (fourier c' (-q) (k + q) x b a) := by
  rw [C73_symmetrize_partial c c' h, C73_symmetrize_partial c c' h]
  have h1 : k + q + -q = k := by simp
  rw [neg_neg, h1, star_div₀, star_add, star_star]
  simp only [Complex.star_def, map_ofNat]
  ring

/-- C73: lattice vectors are sorted and distinct. -/
theorem C73_sorted (sym : Bool) (c c' : Coupling X O) (h : standardize sym c = some c') :
    (∀ i j, i < j → Verif.TB.LexLt (c'.Rg i) (c'.Rg j)) ∧ ∀ i j, i < j → Verif.TB.LexLt (c'.Rk i) (c'.Rk j) := by
  have key : ∀ l : List V3, ∀ i j : Fin (sortedSet l).length, i < j → Verif.TB.LexLt (sortedSet l)[i] (sortedSet l)[j] := by
    intro l i j hij
    have h1 := List.pairwise_mergeSort Verif.TB.lexLe_trans Verif.TB.lexLe_total l.dedup
    have h2 := List.pairwise_iff_getElem.1 h1 i j i.2 j.2 hij
    apply Verif.TB.lexLt_of _ _ h2
    intro he
    have := (List.nodup_iff_injective_getElem.1 (nodup_sortedSet l)) (a₁ := i) (a₂ := j) he
    exact absurd this hij.ne
  unfold standardize at h
  simp only at h
  split at h
  · rw [Option.some.injEq] at h
    subst h
    exact ⟨key _, key _⟩
  · simp at h

theorem mem_stdFold_keys (sym : Bool) (l d : Dict X O) (S : V3 × V3) (h : S ∈ (l.foldl (stdStep sym) d).map Prod.fst) :
    S ∈ d.map Prod.fst ∨ ∃ e ∈ l, S = e.1 ∨ (sym = true ∧ S = (vsub e.1.1 e.1.2, vneg e.1.2)) := by
  induction l generalizing d with
  | nil => exact Or.inl h
  | cons e l ih =>
    rcases ih _ h with h | ⟨e', he', h⟩
    · unfold stdStep at h
      split at h
      · cases sym
        · simp only [Bool.false_eq_true, if_false] at h
          rcases (mem_addTo_keys _ _ _ _).1 h with h | h
          · exact Or.inl h
          · exact Or.inr ⟨e, List.mem_cons_self, Or.inl h⟩
        · simp only [if_true] at h
          rcases (mem_addTo_keys _ _ _ _).1 h with h | h
          · rcases (mem_addTo_keys _ _ _ _).1 h with h | h
            · exact Or.inl h
            · exact Or.inr ⟨e, List.mem_cons_self, Or.inl h⟩
          · exact Or.inr ⟨e, List.mem_cons_self, Or.inr ⟨rfl, h⟩⟩
      · exact Or.inl h
    · exact Or.inr ⟨e', List.mem_cons_of_mem _ he', h⟩

theorem stdFold_keys_of_mem (sym : Bool) (l d : Dict X O) (S : V3 × V3) (h : S ∈ d.map Prod.fst) :
    S ∈ (l.foldl (stdStep sym) d).map Prod.fst := by
  induction l generalizing d with
  | nil => exact h
  | cons e l ih =>
    apply ih
    unfold stdStep
    split
    · cases sym
      · exact (mem_addTo_keys _ _ _ _).2 (Or.inl h)
      · exact (mem_addTo_keys _ _ _ _).2 (Or.inl ((mem_addTo_keys _ _ _ _).2 (Or.inl h)))
    · exact h

/-- C73: `standardize` does not fail if the origin is one of the electronic lattice vectors and, for `symmetrize`, if
the electronic lattice vectors are closed under inversion. -/
theorem C73_defined (sym : Bool) (c : Coupling X O) (h0 : ∃ j, c.Rk j = (0, 0, 0))
    (hs : sym = true → ∀ j, ∃ j', c.Rk j' = vneg (c.Rk j)) : ∃ c', standardize sym c = some c' := by
  refine ⟨_, if_pos (Or.inl ?_)⟩
  have hsub : sortedSet ((stdDict sym c).map fun e => e.1.2) ⊆ List.ofFn c.Rk := by
    intro R hR
    rw [mem_sortedSet, List.mem_map] at hR
    obtain ⟨e, he, rfl⟩ := hR
    rw [List.mem_ofFn]
    rcases mem_stdFold_keys sym _ _ e.1 (List.mem_map_of_mem he) with h | ⟨e', he', h⟩
    · simp only [List.map_cons, List.map_nil, List.mem_singleton] at h
      rw [h]
      exact h0
    · unfold pairs at he'
      simp only [List.mem_flatMap, List.mem_map] at he'
      obtain ⟨i, _, j, _, rfl⟩ := he'
      rcases h with h | ⟨hsym, h⟩
      · rw [h]
        exact ⟨j, rfl⟩
      · rw [h]
        exact hs hsym j
  have := (List.subperm_of_subset (nodup_sortedSet _) hsub).length_le
  rwa [List.length_ofFn] at this

/-- A single orbital coupled to the displacement of a single atom if the electron hops to the next cell. -/
noncomputable def hop : Coupling (Fin 1 × Fin 3) (Fin 1) where
  ng := 1
  nk := 2
  Rg := ![(0, 0, 0)]
  Rk := ![(0, 0, 0), (1, 0, 0)]
  data := fun _ x k _ _ => if x.2 = 0 ∧ k = 1 then 1 else 0

theorem hop_keys : (stdDict true hop).map Prod.fst =
    [((0, 0, 0), (0, 0, 0)), ((0, 0, 0), (1, 0, 0)), ((-1, 0, 0), (-1, 0, 0))] := by
  have hp : pairs hop = [(((0, 0, 0), (0, 0, 0)), fun _ _ _ => 0),
      (((0, 0, 0), (1, 0, 0)), fun x _ _ => if x.2 = 0 then 1 else 0)] := by
    unfold pairs hop
    simp [List.finRange_succ]
  unfold stdDict
  rw [hp, List.foldl_cons, List.foldl_cons, List.foldl_nil]
  have h1 : stdStep true [(((0, 0, 0), (0, 0, 0)), fun _ _ _ => 0)]
      (((0, 0, 0), (0, 0, 0)), fun (_ : Fin 1 × Fin 3) (_ _ : Fin 1) => (0 : ℂ)) =
      [(((0, 0, 0), (0, 0, 0)), fun _ _ _ => 0)] := by
    unfold stdStep
    rw [if_neg]
    simp
  rw [h1]
  unfold stdStep
  rw [if_pos ⟨(0, 0), 0, 0, by simp⟩]
  simp only [if_true, addTo_keys]
  decide

/-- C73: `symmetrize` fails (the array for the lattice vectors has a wrong shape) for a coupling with electronic
lattice vectors which are not closed under inversion. -/
theorem C73_symmetrize_violated : standardize true hop = none := by
  unfold standardize
  have e1 : (stdDict true hop).map (fun e => e.1.1) = [(0, 0, 0), (0, 0, 0), (-1, 0, 0)] := by
    have : (fun e : (V3 × V3) × (Fin 1 × Fin 3 → Fin 1 → Fin 1 → ℂ) => e.1.1) = Prod.fst ∘ Prod.fst := rfl
    rw [this, ← List.map_map, hop_keys]
    rfl
  have e2 : (stdDict true hop).map (fun e => e.1.2) = [(0, 0, 0), (1, 0, 0), (-1, 0, 0)] := by
    have : (fun e : (V3 × V3) × (Fin 1 × Fin 3 → Fin 1 → Fin 1 → ℂ) => e.1.2) = Prod.snd ∘ Prod.fst := rfl
    rw [this, ← List.map_map, hop_keys]
    rfl
  simp only [e1, e2]
  rw [if_neg]
  simp only [sortedSet, List.length_mergeSort]
  decide

example : fourier hop (fun _ => 0) (fun _ => 0) (0, 0) 0 0 = 1 := by
  have hp : ∀ R, phase R (fun _ => 0) = 1 := by
    intro R
    simp [phase]
  change ∑ i : Fin 1, ∑ j : Fin 2, (if (0 : Fin 3) = 0 ∧ j = 1 then (1 : ℂ) else 0) * phase _ _ * phase _ _ = 1
  simp [hp, Fin.sum_univ_two]

/-- The same with the inverse hopping vector. -/
noncomputable def hop2 : Coupling (Fin 1 × Fin 3) (Fin 1) where
  ng := 1
  nk := 3
  Rg := ![(0, 0, 0)]
  Rk := ![(0, 0, 0), (1, 0, 0), (-1, 0, 0)]
  data := fun _ x k _ _ => if x.2 = 0 ∧ k = 1 then 1 else 0

example : ∃ c', standardize true hop2 = some c' ∧
    ∀ q k, fourier c' q k (0, 0) 0 0 = star (fourier c' (-q) (k + q) (0, 0) 0 0) := by
  obtain ⟨c', h⟩ := C73_defined true hop2 ⟨(0 : Fin 3), rfl⟩ (by
    intro _ j
    have : ∀ j : Fin 3, ∃ j' : Fin 3, (![(0, 0, 0), (1, 0, 0), (-1, 0, 0)] : Fin 3 → V3) j' =
        vneg ((![(0, 0, 0), (1, 0, 0), (-1, 0, 0)] : Fin 3 → V3) j) := by decide
    exact this j)
  exact ⟨c', h, fun q k => C73_symmetric_partial hop2 c' h q k _ _ _⟩

/-! ### C47 -/

variable [DecidableEq O]

theorem standardize_origin (sym : Bool) (c c' : Coupling X O) (h : standardize sym c = some c') :
    ∃ j, c'.Rk j = (0, 0, 0) := by
  unfold standardize at h
  simp only at h
  split at h
  · rw [Option.some.injEq] at h
    subst h
    have hm : (0, 0, 0) ∈ sortedSet ((stdDict sym c).map fun e => e.1.2) := by
      rw [mem_sortedSet]
      have h1 : (((0, 0, 0), (0, 0, 0)) : V3 × V3) ∈ (stdDict sym c).map Prod.fst :=
        stdFold_keys_of_mem sym _ _ _ (by simp)
      obtain ⟨e, he, h2⟩ := List.mem_map.1 h1
      exact List.mem_map.2 ⟨e, he, by rw [h2]⟩
    obtain ⟨j, hj, he⟩ := List.getElem_of_mem hm
    exact ⟨⟨j, hj⟩, he⟩
  · simp at h

theorem run_good (s t : State X O) (o : Op X O) (h : o.run s = some t) (ho : Origin s) (hv : Valid s) :
    Origin t ∧ Valid t := by
  cases o with
  | g q k =>
    simp only [Op.run, Option.some.injEq] at h
    subst h
    exact ⟨ho, g_valid s q k hv⟩
  | standardize sym junk =>
    simp only [Op.run, State.standardize, Option.map_eq_some_iff] at h
    obtain ⟨c', hc, rfl⟩ := h
    constructor
    · intro _
      obtain ⟨j, hj⟩ := standardize_origin sym s.c c' hc
      exact vectorIndex_some _ _ j hj
    · intro q hq
      simp at hq

/-- C47: for any history of calls of `g`, `standardize` and `symmetrize`, `g` returns the coupling of the current data.
Partial, as `asr` and `q2r` are not included. -/
theorem C47_history_partial (s t : State X O) (ho : Origin s) (hs : s.q = none) (h : Reachable s t)
    (q k : Fin 3 → ℝ) : (g t q k).2 = total t q k := by
  have : Origin t ∧ Valid t := by
    induction h with
    | refl => exact ⟨ho, fun q hq => by rw [hs] at hq; simp at hq⟩
    | step o _ hr ih => exact run_good _ _ o hr ih.1 ih.2
  exact g_result t this.1 q k (Or.inr this.2)

/-- C47: whatever was done to the data, the coupling for a wave vector other than the cached one is calculated from the
current data. -/
theorem C47_fresh_partial (s : State X O) (ho : Origin s) (q k : Fin 3 → ℝ) (h : s.q ≠ some q) :
    (g s q k).2 = total s q k := g_result s ho q k (Or.inl h)

/-- Constant coupling. -/
noncomputable def const1 : State (Fin 1 × Fin 3) (Fin 1) where
  c := { ng := 1, nk := 1, Rg := fun _ => (0, 0, 0), Rk := fun _ => (0, 0, 0), data := fun _ _ _ _ _ => 1 }
  lr := none
  Rk0 := some 0
  q := none
  gq := fun _ _ _ _ => 0

/-- C47: after `g`, `asr`, the method `g` returns the coupling before the correction for the same wave vector. -/
theorem C47_asr_violated : ∃ (s : State (Fin 1 × Fin 3) (Fin 1)) (q k : Fin 3 → ℝ) (x : Fin 1 × Fin 3) (a b : Fin 1),
    Origin s ∧ s.q = none ∧ (g (g s q k).1.asr q k).2 x a b ≠ total (g s q k).1.asr q k x a b := by
  refine ⟨const1, fun _ => 0, fun _ => 0, (0, 0), 0, 0, ?_, rfl, ?_⟩
  · intro h
    exact absurd rfl h
  · have hp : ∀ R, phase R (fun _ => 0) = 1 := by
      intro R
      simp [phase]
    have h1 : (g (g const1 (fun _ => 0) fun _ => 0).1.asr (fun _ => 0) fun _ => 0).2 (0, 0) 0 0 = 1 := by
      simp [g, refresh, State.asr, calcGq, const1, hp]
      rfl
    have h2 : total (g const1 (fun _ => 0) fun _ => 0).1.asr (fun _ => 0) (fun _ => 0) (0, 0) 0 0 = 0 := by
      simp [total, fourier, g, refresh, State.asr, ElPh.asr, const1, hp]
    rw [h1, h2]
    exact one_ne_zero

/-! ### C45 -/

/-- C45: after `asr`, the coupling summed over lattice vectors and atoms vanishes. -/
theorem C45_elph {nat : Nat} (c : Coupling (Fin nat × Fin 3) O) (x : Fin 3) (r : Fin c.nk) (a b : O) :
    ∑ R, ∑ na, (asr c).data R (na, x) r a b = 0 := by
  unfold asr
  simp only [Finset.sum_sub_distrib, ← Finset.sum_mul]
  by_cases h : ∑ R, ∑ na, ‖c.data R (na, x) r a b‖ = 0
  · have h0 : ∀ R na, c.data R (na, x) r a b = 0 := by
      intro R na
      rw [Finset.sum_eq_zero_iff_of_nonneg fun R _ => Finset.sum_nonneg fun na _ => norm_nonneg _] at h
      have := (Finset.sum_eq_zero_iff_of_nonneg fun na _ => norm_nonneg _).1 (h R (Finset.mem_univ R)) na
        (Finset.mem_univ na)
      exact norm_eq_zero.1 this
    simp [h0]
  · rw [if_neg h]
    have : (∑ R, ∑ na, ((‖c.data R (na, x) r a b‖ / ∑ R, ∑ na, ‖c.data R (na, x) r a b‖ : ℝ) : ℂ)) = 1 := by
      have h1 : ∑ R, ∑ na, (‖c.data R (na, x) r a b‖ / ∑ R, ∑ na, ‖c.data R (na, x) r a b‖) = 1 := by
        simp only [← Finset.sum_div]
        exact div_self h
      exact_mod_cast congrArg (fun x : ℝ => (x : ℂ)) h1
    rw [this]
    ring

/-- C45: zeros remain zeros. -/
theorem C45_elph_zeros {nat : Nat} (c : Coupling (Fin nat × Fin 3) O) (R : Fin c.ng) (x : Fin nat × Fin 3)
    (r : Fin c.nk) (a b : O) (h : c.data R x r a b = 0) : (asr c).data R x r a b = 0 := by
  unfold asr
  simp [h]

/-- C45: after `asr`, the coupling for vanishing wave vector summed over atoms vanishes for each `k`: without division by
masses, there is no coupling to acoustic phonons. -/
theorem C45_elph_acoustic {nat : Nat} (c : Coupling (Fin nat × Fin 3) O) (k : Fin 3 → ℝ) (x : Fin 3) (a b : O) :
    ∑ na, fourier (asr c) (fun _ => 0) k (na, x) a b = 0 := by
  have hp : ∀ R, phase R (fun _ => 0) = 1 := by
    intro R
    simp [phase]
  unfold fourier
  simp only [hp, mul_one]
  have : ∑ na, ∑ i, ∑ j, (asr c).data i (na, x) j a b * phase ((asr c).Rk j) k =
      ∑ j, (∑ i, ∑ na, (asr c).data i (na, x) j a b) * phase ((asr c).Rk j) k := by
    simp only [Finset.sum_mul]
    rw [Finset.sum_comm]
    have h : ∀ i, ∑ na, ∑ j, (asr c).data i (na, x) j a b * phase ((asr c).Rk j) k =
        ∑ j, ∑ na, (asr c).data i (na, x) j a b * phase ((asr c).Rk j) k := fun i => Finset.sum_comm
    simp only [h]
    rw [Finset.sum_comm]
  rw [this]
  apply Finset.sum_eq_zero
  intro j _
  rw [show (∑ i, ∑ na, (asr c).data i (na, x) j a b) = 0 from C45_elph c x j a b, zero_mul]

/-- Coupling of two atoms with masses one and four (divided by the square roots of the masses) which fulfils the
sum rule. -/
noncomputable def heavy : Coupling (Fin 2 × Fin 3) (Fin 1) where
  ng := 1
  nk := 1
  Rg := fun _ => (0, 0, 0)
  Rk := fun _ => (0, 0, 0)
  data := fun _ x _ _ _ => if x.1 = 0 then 2 else -1

/-- C45: if the coupling has been divided by masses (`divide_mass`, the default of the constructor), `asr` takes no
notice: a coupling which obeys the sum rule, i.e., whose sum weighted with the square roots of the masses vanishes, is
replaced by one that does not. -/
theorem C45_elph_masses_violated : ∃ (c : Coupling (Fin 2 × Fin 3) (Fin 1)) (M : Fin 2 → ℝ), (∀ na, 0 < M na) ∧
    (∀ x r a b, ∑ R, ∑ na, ((Real.sqrt (M na) : ℝ) : ℂ) * c.data R (na, x) r a b = 0) ∧
    ∃ x r a b, ∑ R, ∑ na, ((Real.sqrt (M na) : ℝ) : ℂ) * (asr c).data R (na, x) r a b ≠ 0 := by
  have h4 : Real.sqrt 4 = 2 := by
    rw [show (4 : ℝ) = 2 ^ 2 by norm_num, Real.sqrt_sq (by norm_num)]
  refine ⟨heavy, ![1, 4], ?_, ?_, 0, (0 : Fin 1), 0, 0, ?_⟩
  · intro na
    fin_cases na <;> norm_num
  · intro x r a b
    change ∑ R : Fin 1, ∑ na : Fin 2, _ = _
    simp [heavy, Fin.sum_univ_two, h4]
  · change ∑ R : Fin 1, ∑ na : Fin 2, _ ≠ _
    have h1 : (∑ R : Fin 1, ∑ na : Fin 2, heavy.data R (na, 0) (0 : Fin 1) 0 0) = 1 := by
      simp [heavy, Fin.sum_univ_two]
      norm_num
    have h2 : (∑ R : Fin 1, ∑ na : Fin 2, ‖heavy.data R (na, 0) (0 : Fin 1) 0 0‖) = 3 := by
      simp [heavy, Fin.sum_univ_two]
      norm_num
    have h : ∀ na, (asr heavy).data (0 : Fin 1) (na, 0) (0 : Fin 1) 0 0 =
        heavy.data (0 : Fin 1) (na, 0) (0 : Fin 1) 0 0 -
        ((‖heavy.data (0 : Fin 1) (na, 0) (0 : Fin 1) 0 0‖ / 3 : ℝ) : ℂ) := by
      intro na
      have : (asr heavy).data (0 : Fin 1) (na, 0) (0 : Fin 1) 0 0 =
        heavy.data (0 : Fin 1) (na, 0) (0 : Fin 1) 0 0 -
        ((‖heavy.data (0 : Fin 1) (na, 0) (0 : Fin 1) 0 0‖ /
          (if (∑ R : Fin 1, ∑ na : Fin 2, ‖heavy.data R (na, 0) (0 : Fin 1) 0 0‖) = 0 then 1 else
            (∑ R : Fin 1, ∑ na : Fin 2, ‖heavy.data R (na, 0) (0 : Fin 1) 0 0‖)) : ℝ) : ℂ) *
          (∑ R : Fin 1, ∑ na : Fin 2, heavy.data R (na, 0) (0 : Fin 1) 0 0) := by
        unfold asr
        simp only
        congr
      rw [this, h1, h2, mul_one, if_neg (by norm_num)]
    simp only [Fin.sum_univ_one, Fin.sum_univ_two, h]
    simp [heavy, h4]
    norm_num

/-! ### Examples -/

example := C45_elph heavy 0 (0 : Fin 1) 0 0

example := C45_elph_zeros (nat := 2) { heavy with data := fun _ x _ _ _ => if x.1 = 0 then 2 else 0 } (0 : Fin 1) (1, 0) (0 : Fin 1) 0 0
  (by simp)

example := C45_elph_acoustic heavy (fun _ => 1) 0 0 0

/-- State after two calls of `g` with different wave vectors. -/
example := C47_history_partial const1 _ (fun h => absurd rfl h) rfl
  (.step (.g (fun _ => 2) fun _ => 1) (.step (.g (fun _ => 1) fun _ => 1) .refl rfl) rfl) (fun _ => 2) fun _ => 3

example := C47_fresh_partial (g const1 (fun _ => 1) fun _ => 1).1 (fun h => absurd rfl h) (fun _ => 2) (fun _ => 1) (by
  intro h
  have h1 : (g const1 (fun _ => 1) fun _ => 1).1.q = some fun _ => 1 := rfl
  rw [h1] at h
  have := congrFun (Option.some.inj h) 0
  norm_num at this)

end Verif.ElPh
