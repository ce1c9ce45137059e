import Verif.TB.Lemmas
import Verif.Fourier.Lemmas
import Mathlib.Analysis.SpecialFunctions.ExpDeriv
import Mathlib.Analysis.Complex.RealDeriv
import Mathlib.LinearAlgebra.Matrix.Charpoly.Basic
import Mathlib.Tactic.LinearCombination

/-!
# C40, C41, C44, C72: Bloch matrices, `standardize`, `order_orbitals`, `shift_orbitals`

The matrices returned by `el.Model.H`, `elel.Model.W` (`bloch`) and `ph.Model.D` (`dynMat`) are what a user observes.
-/

namespace Verif.TB

open Verif.Lattice (V3 vadd vsub)
open Verif.Fourier (phase bloch list_star_sum)

variable {α : Type}

theorem bloch_eq (l : Blocks α ℂ) (k : Fin 3 → ℝ) (a b : α) :
    bloch l k a b = wsum (fun R M => M a b * phase R k) l := rfl

theorem dynMat_eq (l : Blocks α ℝ) (q : Fin 3 → ℝ) (a b : α) :
    dynMat l q a b = wsum (fun R M => ((M a b : ℝ) : ℂ) * phase R q) l := by
  unfold dynMat bloch wsum
  rw [List.map_map]
  rfl

theorem wsum_congr {K : Type} (g h : V3 → (α → α → K) → ℂ) (l : Blocks α K) (H : ∀ R M, g R M = h R M) :
    wsum g l = wsum h l := by
  unfold wsum
  simp only [H]

theorem wsum_star {K : Type} (g : V3 → (α → α → K) → ℂ) (l : Blocks α K) :
    star (wsum g l) = wsum (fun R M => star (g R M)) l := by
  unfold wsum
  rw [list_star_sum, List.map_map]
  rfl

theorem star_phase (R : V3) (k : Fin 3 → ℝ) : star (phase R k) = phase (vneg R) k := by
  unfold phase vneg
  rw [Complex.star_def, ← Complex.exp_conj]
  congr 1
  simp only [map_mul, map_add, Complex.conj_I, Complex.conj_ofReal, map_intCast]
  push_cast
  ring

theorem phase_add (R S : V3) (k : Fin 3 → ℝ) : phase (vadd R S) k = phase R k * phase S k := by
  unfold phase vadd
  rw [← Complex.exp_add]
  congr 1
  push_cast
  ring

theorem phase_sub (R S : V3) (k : Fin 3 → ℝ) : phase (vsub R S) k = phase R k * star (phase S k) := by
  rw [star_phase, ← phase_add]
  rfl

theorem phase_mul_star (R : V3) (k : Fin 3 → ℝ) : phase R k * star (phase R k) = 1 := by
  rw [star_phase, ← phase_add]
  unfold phase vadd vneg
  simp

theorem norm_phase (R : V3) (k : Fin 3 → ℝ) : ‖phase R k‖ = 1 := by
  have h : (R.1 : ℂ) * (k 0 : ℂ) + (R.2.1 : ℂ) * (k 1 : ℂ) + (R.2.2 : ℂ) * (k 2 : ℂ) =
      (((R.1 : ℝ) * k 0 + (R.2.1 : ℝ) * k 1 + (R.2.2 : ℝ) * k 2 : ℝ) : ℂ) := by
    push_cast
    rfl
  unfold phase
  rw [h, mul_comm, Complex.norm_exp_ofReal_mul_I]

theorem phase_periodic (R : V3) (k : Fin 3 → ℝ) (n : Fin 3 → Int) :
    phase R (fun x => k x + 2 * Real.pi * n x) = phase R k := by
  unfold phase
  rw [show Complex.I * ((R.1 : ℂ) * ((k 0 + 2 * Real.pi * n 0 : ℝ) : ℂ) + (R.2.1 : ℂ) *
      ((k 1 + 2 * Real.pi * n 1 : ℝ) : ℂ) + (R.2.2 : ℂ) * ((k 2 + 2 * Real.pi * n 2 : ℝ) : ℂ)) =
      Complex.I * ((R.1 : ℂ) * (k 0 : ℂ) + (R.2.1 : ℂ) * (k 1 : ℂ) + (R.2.2 : ℂ) * (k 2 : ℂ)) +
      ((R.1 * n 0 + R.2.1 * n 1 + R.2.2 * n 2 : Int) : ℂ) * (2 * Real.pi * Complex.I) by push_cast; ring]
  rw [Complex.exp_add, Complex.exp_int_mul_two_pi_mul_I, mul_one]

theorem phase_neg (R : V3) (k : Fin 3 → ℝ) : phase R (fun x => - k x) = star (phase R k) := by
  rw [star_phase]
  unfold phase vneg
  congr 1
  push_cast
  ring

/-- C40: `H(k)` and `W(q)` are 2π periodic in each component. -/
theorem C40_periodic (l : Blocks α ℂ) (k : Fin 3 → ℝ) (n : Fin 3 → Int) (a b : α) :
    bloch l (fun x => k x + 2 * Real.pi * n x) a b = bloch l k a b := by
  simp only [bloch, phase_periodic]

/-- C40: `D(q)` is 2π periodic in each component. -/
theorem C40_periodic_ph (l : Blocks α ℝ) (q : Fin 3 → ℝ) (n : Fin 3 → Int) (a b : α) :
    dynMat l (fun x => q x + 2 * Real.pi * n x) a b = dynMat l q a b :=
  C40_periodic _ q n a b

example : bloch [((1, 0, 0), fun _ _ : Fin 1 => (Complex.I : ℂ))] (fun _ => 0 + 2 * Real.pi * (3 : Int)) 0 0 =
    Complex.I := by
  rw [C40_periodic _ (fun _ => 0) (fun _ => 3)]
  simp [bloch, phase]

/-- C40: `D(-q)` is the complex conjugate of `D(q)`, since force constants are real. -/
theorem C40_time_reversal (l : Blocks α ℝ) (q : Fin 3 → ℝ) (a b : α) :
    dynMat l (fun x => - q x) a b = star (dynMat l q a b) := by
  rw [dynMat_eq, dynMat_eq, wsum_star]
  refine wsum_congr _ _ l fun R M => ?_
  rw [phase_neg, star_mul', Complex.star_def, Complex.conj_ofReal]

example : dynMat [((1, 0, 0), fun _ _ : Fin 1 => (2 : ℝ))] (fun _ => - (Real.pi / 2)) 0 0 =
    star (dynMat [((1, 0, 0), fun _ _ : Fin 1 => (2 : ℝ))] (fun _ => Real.pi / 2) 0 0) :=
  C40_time_reversal _ _ 0 0

/-! ### `standardize` -/

theorem threshold_zero {K : Type} [Fintype α] [NormedAddCommGroup K] (l : Blocks α K) : threshold 0 l = l := by
  simp [threshold]

theorem wsum_collect {K : Type} [AddMonoid K] (g : V3 → (α → α → K) → ℂ)
    (hg : ∀ R M M', g R (fun a b => M a b + M' a b) = g R M + g R M') (hz : ∀ R, g R (fun _ _ => 0) = 0)
    (dag : (α → α → K) → α → α → K) (hdag : dag (fun _ _ => 0) = fun _ _ => 0) (sym : Bool) (l : Blocks α K) :
    wsum g (collect dag sym l) = wsum g l + if sym then wsum (fun R M => g (vneg R) (dag M)) l else 0 := by
  unfold collect
  rw [wsum_sortDict g _ (fold_nodup dag sym l [] List.nodup_nil),
    wsum_fold g hg hz dag hdag sym l [] List.nodup_nil, wsum_nil, zero_add]

theorem dagger_zero : dagger (fun _ _ : α => (0 : ℂ)) = fun _ _ => 0 := by
  funext a b
  simp [dagger]

/-- The Bloch matrix after `standardize` with symmetrization is the Hermitian part of that before. -/
theorem C40_symmetrize [Fintype α] (l : Blocks α ℂ) (k : Fin 3 → ℝ) (a b : α) :
    bloch (elStandardize 0 true l) k a b = (bloch l k a b + star (bloch l k b a)) / 2 := by
  unfold elStandardize
  simp only [if_true, threshold_zero]
  rw [bloch_eq, bloch_eq, bloch_eq]
  have h1 : wsum (fun R M => M a b * phase R k) (List.map (fun e => (e.1, fun a b => e.2 a b / 2))
      (collect dagger true l)) = wsum (fun R M => M a b * phase R k) (collect dagger true l) / 2 := by
    unfold wsum
    rw [List.map_map, div_eq_mul_inv, ← List.sum_map_mul_right]
    congr 1
    apply List.map_congr_left
    intro e _
    simp only [Function.comp]
    ring
  rw [h1, wsum_collect _ (fun R M M' => by ring) (fun R => by ring) dagger dagger_zero true l]
  simp only [if_true]
  congr 2
  rw [wsum_star]
  refine wsum_congr _ _ l fun R M => ?_
  rw [star_mul', star_phase]
  rfl

theorem elStandardize_threshold [Fintype α] (eps : ℝ) (sym : Bool) (l : Blocks α ℂ) :
    elStandardize eps sym l = elStandardize 0 sym (threshold eps l) := by
  unfold elStandardize
  rw [threshold_zero]

theorem phStandardize_threshold [Fintype α] (eps : ℝ) (sym : Bool) (l : Blocks α ℝ) :
    phStandardize eps sym l = phStandardize 0 sym (threshold eps l) := by
  unfold phStandardize
  rw [threshold_zero]

theorem elelStandardize_threshold [Fintype α] (eps : ℝ) (l : Blocks α ℂ) :
    elelStandardize eps l = elelStandardize 0 (threshold eps l) := by
  unfold elelStandardize
  rw [threshold_zero]

/-- C40: after `symmetrize`, `H(k)` is Hermitian at all k, whatever the data before and the threshold. -/
theorem C40_hermitian [Fintype α] (eps : ℝ) (l : Blocks α ℂ) (k : Fin 3 → ℝ) (a b : α) :
    star (bloch (elStandardize eps true l) k b a) = bloch (elStandardize eps true l) k a b := by
  rw [elStandardize_threshold, C40_symmetrize, C40_symmetrize]
  simp only [star_div₀, star_add, star_star, star_ofNat]
  ring

example : star (bloch (elStandardize 0 true [((1, 0, 0), fun _ _ : Fin 2 => (Complex.I : ℂ))]) (fun _ => 1) 0 1) =
    bloch (elStandardize 0 true [((1, 0, 0), fun _ _ : Fin 2 => (Complex.I : ℂ))]) (fun _ => 1) 1 0 :=
  C40_hermitian _ _ _ _ _

/-- The same for phonons. -/
theorem C40_symmetrize_ph [Fintype α] (l : Blocks α ℝ) (q : Fin 3 → ℝ) (a b : α) :
    dynMat (phStandardize 0 true l) q a b = (dynMat l q a b + star (dynMat l q b a)) / 2 := by
  unfold phStandardize
  simp only [if_true, threshold_zero]
  rw [dynMat_eq, dynMat_eq, dynMat_eq]
  have h1 : wsum (fun R M => ((M a b : ℝ) : ℂ) * phase R q) (List.map (fun e => (e.1, fun a b => e.2 a b / 2))
      (collect (fun M a b => M b a) true l)) =
      wsum (fun R M => ((M a b : ℝ) : ℂ) * phase R q) (collect (fun M a b => M b a) true l) / 2 := by
    unfold wsum
    rw [List.map_map, div_eq_mul_inv, ← List.sum_map_mul_right]
    congr 1
    apply List.map_congr_left
    intro e _
    simp only [Function.comp]
    push_cast
    ring
  rw [h1, wsum_collect _ (fun R M M' => by push_cast; ring) (fun R => by simp) _ rfl true l]
  simp only [if_true]
  congr 2
  rw [wsum_star]
  refine wsum_congr _ _ l fun R M => ?_
  rw [star_mul', star_phase, Complex.star_def, Complex.conj_ofReal]

/-- C40: after `symmetrize`, `D(q)` is Hermitian at all q. -/
theorem C40_hermitian_ph [Fintype α] (eps : ℝ) (l : Blocks α ℝ) (q : Fin 3 → ℝ) (a b : α) :
    star (dynMat (phStandardize eps true l) q b a) = dynMat (phStandardize eps true l) q a b := by
  rw [phStandardize_threshold, C40_symmetrize_ph, C40_symmetrize_ph]
  simp only [star_div₀, star_add, star_star, star_ofNat]
  ring

example : star (dynMat (phStandardize 0 true [((1, 0, 0), fun a b : Fin 2 => if a < b then (2 : ℝ) else 0)])
      (fun _ => 1) 0 1) =
    dynMat (phStandardize 0 true [((1, 0, 0), fun a b : Fin 2 => if a < b then (2 : ℝ) else 0)]) (fun _ => 1) 1 0 :=
  C40_hermitian_ph _ _ _ _ _

/-- C41: `standardize` does not change `H(k)`. -/
theorem C41_bloch [Fintype α] (l : Blocks α ℂ) (k : Fin 3 → ℝ) (a b : α) :
    bloch (elStandardize 0 false l) k a b = bloch l k a b := by
  unfold elStandardize
  simp only [Bool.false_eq_true, if_false, threshold_zero]
  rw [bloch_eq, wsum_collect _ (fun R M M' => by ring) (fun R => by ring) dagger dagger_zero false l]
  simp [bloch_eq]

/-- C41: `standardize` does not change `W(q)`. -/
theorem C41_bloch_elel [Fintype α] (l : Blocks α ℂ) (k : Fin 3 → ℝ) (a b : α) :
    bloch (elelStandardize 0 l) k a b = bloch l k a b := by
  have := C41_bloch l k a b
  unfold elelStandardize
  simpa only [elStandardize, Bool.false_eq_true, if_false] using this

/-- C41: `standardize` does not change `D(q)`. -/
theorem C41_bloch_ph [Fintype α] (l : Blocks α ℝ) (q : Fin 3 → ℝ) (a b : α) :
    dynMat (phStandardize 0 false l) q a b = dynMat l q a b := by
  unfold phStandardize
  simp only [Bool.false_eq_true, if_false, threshold_zero]
  rw [dynMat_eq, wsum_collect _ (fun R M M' => by push_cast; ring) (fun R => by simp) _ rfl false l]
  simp [dynMat_eq]

example : bloch (elStandardize 0 false [((1, 0, 0), fun _ _ : Fin 1 => (2 : ℂ)), ((0, 0, 0), fun _ _ => 1),
    ((1, 0, 0), fun _ _ => 3)]) (fun _ => 0) 0 0 = 6 := by
  rw [C41_bloch]
  simp [bloch, phase]
  norm_num

theorem collect_sorted {K : Type} [AddMonoid K] (dag : (α → α → K) → α → α → K) (sym : Bool) (l : Blocks α K) :
    ((collect dag sym l).map Prod.fst).Pairwise LexLt :=
  sortDict_sorted _ (fold_nodup dag sym l [] List.nodup_nil)

theorem mem_collect {K : Type} [AddMonoid K] (dag : (α → α → K) → α → α → K) (sym : Bool) (l : Blocks α K) (R : V3) :
    R ∈ (collect dag sym l).map Prod.fst ↔
      ∃ e ∈ l, (∃ a b, e.2 a b ≠ 0) ∧ (R = e.1 ∨ sym = true ∧ R = vneg e.1) := by
  unfold collect
  rw [sortDict_keys, (List.mergeSort_perm _ _).mem_iff, mem_fold]
  simp

theorem map_half_keys {K : Type} (f : K → K) (l : Blocks α K) :
    (l.map fun e => (e.1, fun a b => f (e.2 a b))).map Prod.fst = l.map Prod.fst := by
  rw [List.map_map]
  rfl

/-- C41: the lattice vectors are strictly increasing afterwards. -/
theorem C41_sorted [Fintype α] (eps : ℝ) (sym : Bool) (l : Blocks α ℂ) :
    ((elStandardize eps sym l).map Prod.fst).Pairwise LexLt := by
  unfold elStandardize
  simp only
  split
  · rw [map_half_keys (· / 2)]
    exact collect_sorted _ _ _
  · exact collect_sorted _ _ _

/-- C41: the lattice vectors are strictly increasing afterwards. -/
theorem C41_sorted_ph [Fintype α] (eps : ℝ) (sym : Bool) (l : Blocks α ℝ) :
    ((phStandardize eps sym l).map Prod.fst).Pairwise LexLt := by
  unfold phStandardize
  simp only
  split
  · rw [map_half_keys (· / 2)]
    exact collect_sorted _ _ _
  · exact collect_sorted _ _ _

/-- C41: the lattice vectors are strictly increasing afterwards. -/
theorem C41_sorted_elel [Fintype α] (eps : ℝ) (l : Blocks α ℂ) :
    ((elelStandardize eps l).map Prod.fst).Pairwise LexLt := collect_sorted _ _ _

/-- C41: exactly the lattice vectors (and with symmetrization their negatives) of nonzero matrices are left. -/
theorem C41_vectors [Fintype α] (sym : Bool) (l : Blocks α ℂ) (R : V3) :
    R ∈ (elStandardize 0 sym l).map Prod.fst ↔
      ∃ e ∈ l, (∃ a b, e.2 a b ≠ 0) ∧ (R = e.1 ∨ sym = true ∧ R = vneg e.1) := by
  rw [← mem_collect dagger sym l R]
  unfold elStandardize
  simp only [threshold_zero]
  split
  · rw [map_half_keys (· / 2)]
  · rfl

/-- C41: exactly the lattice vectors (and with symmetrization their negatives) of nonzero matrices are left. -/
theorem C41_vectors_ph [Fintype α] (sym : Bool) (l : Blocks α ℝ) (R : V3) :
    R ∈ (phStandardize 0 sym l).map Prod.fst ↔
      ∃ e ∈ l, (∃ a b, e.2 a b ≠ 0) ∧ (R = e.1 ∨ sym = true ∧ R = vneg e.1) := by
  rw [← mem_collect (fun M a b => M b a) sym l R]
  unfold phStandardize
  simp only [threshold_zero]
  split
  · rw [map_half_keys (· / 2)]
  · rfl

example : (-1, 0, 2) ∈ (phStandardize 0 true [((1, 0, -2), fun _ _ : Fin 1 => (2 : ℝ))]).map Prod.fst :=
  (C41_vectors_ph true _ _).2 ⟨_, List.mem_singleton_self _, ⟨0, 0, two_ne_zero⟩, Or.inr ⟨rfl, rfl⟩⟩

theorem get_of_mem {K : Type} [Zero K] (d : Blocks α K) (hnd : (d.map Prod.fst).Nodup) (e : V3 × (α → α → K))
    (he : e ∈ d) : get d e.1 = e.2 := by
  induction d with
  | nil => simp at he
  | cons f d ih =>
    rw [List.map_cons, List.nodup_cons] at hnd
    rw [get_cons]
    rcases List.mem_cons.1 he with rfl | h
    · simp
    · rw [if_neg, ih hnd.2 h]
      intro h'
      exact hnd.1 (h' ▸ List.mem_map_of_mem h)

theorem nodup_of_sorted (l : List V3) (h : l.Pairwise LexLt) : l.Nodup := by
  refine h.imp ?_
  rintro a b h rfl
  unfold LexLt at h
  omega

theorem collect_values {K : Type} [AddCommMonoid K] (dag : (α → α → K) → α → α → K) (l : Blocks α K)
    (e : V3 × (α → α → K)) (he : e ∈ collect dag false l) (a b : α) :
    e.2 a b = (l.map fun f => if f.1 = e.1 then f.2 a b else 0).sum := by
  rw [← get_of_mem _ (nodup_of_sorted _ (collect_sorted dag false l)) e he]
  unfold collect
  rw [get_sortDict, get_fold, get_nil, zero_add]

/-- C41: the matrix at each lattice vector is the sum of all matrices given for it. -/
theorem C41_values [Fintype α] (l : Blocks α ℂ) (e : V3 × (α → α → ℂ)) (he : e ∈ elStandardize 0 false l) (a b : α) :
    e.2 a b = (l.map fun f => if f.1 = e.1 then f.2 a b else 0).sum := by
  unfold elStandardize at he
  simp only [Bool.false_eq_true, if_false, threshold_zero] at he
  exact collect_values dagger l e he a b

/-- C41: the matrix at each lattice vector is the sum of all matrices given for it. -/
theorem C41_values_ph [Fintype α] (l : Blocks α ℝ) (e : V3 × (α → α → ℝ)) (he : e ∈ phStandardize 0 false l) (a b : α) :
    e.2 a b = (l.map fun f => if f.1 = e.1 then f.2 a b else 0).sum := by
  unfold phStandardize at he
  simp only [Bool.false_eq_true, if_false, threshold_zero] at he
  exact collect_values _ l e he a b

/-- A sorted list of nonzero blocks is a fixed point. -/
theorem collect_fixed {K : Type} [AddMonoid K] (dag : (α → α → K) → α → α → K) (l : Blocks α K)
    (h : (l.map Prod.fst).Pairwise LexLt) (hnz : ∀ e ∈ l, ∃ a b, e.2 a b ≠ 0) : collect dag false l = l := by
  unfold collect
  rw [fold_of_nodup dag l [] (by simpa using nodup_of_sorted _ h) hnz, List.nil_append, sortDict_of_sorted l h]

/-- What `collect` does to a sorted list: it drops zero blocks. -/
theorem collect_of_sorted {K : Type} [AddMonoid K] (dag : (α → α → K) → α → α → K) (l : Blocks α K)
    (h : (l.map Prod.fst).Pairwise LexLt) :
    (∀ e ∈ collect dag false l, e ∈ l ∧ ∃ a b, e.2 a b ≠ 0) := by
  classical
  have key : ∀ (l d : Blocks α K), l.foldl (standardizeStep dag false) d =
      (l.filter fun e => decide (∃ a b, e.2 a b ≠ 0)).foldl (standardizeStep dag false) d := by
    intro l
    induction l with
    | nil => intro d; rfl
    | cons e l ih =>
      intro d
      rw [List.foldl_cons, List.filter_cons]
      split
      · rw [List.foldl_cons]
        exact ih _
      · rename_i hn
        rw [decide_eq_true_eq] at hn
        rw [← ih]
        congr 1
        unfold standardizeStep
        rw [if_neg hn]
  have hs : ((l.filter fun e => decide (∃ a b, e.2 a b ≠ 0)).map Prod.fst).Pairwise LexLt :=
    h.sublist (List.Sublist.map _ List.filter_sublist)
  intro e he
  unfold collect at he
  rw [key] at he
  have := collect_fixed dag _ hs (fun e he => by simpa using (List.mem_filter.1 he).2)
  unfold collect at this
  rw [this] at he
  rw [List.mem_filter, decide_eq_true_eq] at he
  exact he

/-- C41: applying `standardize` a second time changes nothing if no sum of matrices vanishes. -/
theorem C41_idempotent_partial [Fintype α] (l : Blocks α ℂ)
    (h : ∀ R ∈ l.map Prod.fst, ∃ a b, (l.map fun f => if f.1 = R then f.2 a b else 0).sum ≠ 0) :
    elStandardize 0 false (elStandardize 0 false l) = elStandardize 0 false l := by
  have hE : ∀ l : Blocks α ℂ, elStandardize 0 false l = collect dagger false l := by
    intro l
    simp only [elStandardize, Bool.false_eq_true, if_false, threshold_zero]
  rw [hE (elStandardize 0 false l)]
  refine collect_fixed _ _ (C41_sorted 0 false l) ?_
  intro e he
  have hm : e.1 ∈ (elStandardize 0 false l).map Prod.fst := List.mem_map_of_mem he
  rw [C41_vectors] at hm
  obtain ⟨f, hf, -, hR⟩ := hm
  obtain ⟨a, b, hab⟩ := h e.1 (by
    rcases hR with hR | hR
    · rw [hR]; exact List.mem_map_of_mem hf
    · simp at hR)
  refine ⟨a, b, ?_⟩
  rwa [C41_values l e he a b]

example : elStandardize 0 false (elStandardize 0 false [((1, 0, 0), fun _ _ : Fin 1 => (2 : ℂ)),
      ((0, 0, 0), fun _ _ => 1), ((1, 0, 0), fun _ _ => 3)]) =
    elStandardize 0 false [((1, 0, 0), fun _ _ : Fin 1 => (2 : ℂ)), ((0, 0, 0), fun _ _ => 1),
      ((1, 0, 0), fun _ _ => 3)] := by
  apply C41_idempotent_partial
  intro R hR
  refine ⟨0, 0, ?_⟩
  simp at hR
  rcases hR with rfl | rfl | rfl <;> norm_num

theorem collect_stable {K : Type} [AddMonoid K] (dag : (α → α → K) → α → α → K) (l : Blocks α K) :
    collect dag false (collect dag false (collect dag false l)) = collect dag false (collect dag false l) :=
  collect_fixed _ _ (collect_sorted _ _ _) fun e he =>
    (collect_of_sorted dag _ (collect_sorted dag false l) e he).2

/-- C41: two applications always suffice: a third one changes nothing. -/
theorem C41_stable [Fintype α] (l : Blocks α ℂ) :
    elStandardize 0 false (elStandardize 0 false (elStandardize 0 false l)) =
      elStandardize 0 false (elStandardize 0 false l) := by
  simp only [elStandardize, Bool.false_eq_true, if_false, threshold_zero]
  exact collect_stable dagger l

/-- C41: the same for phonons. -/
theorem C41_stable_ph [Fintype α] (l : Blocks α ℝ) :
    phStandardize 0 false (phStandardize 0 false (phStandardize 0 false l)) =
      phStandardize 0 false (phStandardize 0 false l) := by
  simp only [phStandardize, Bool.false_eq_true, if_false, threshold_zero]
  exact collect_stable _ l

/-- C41 does not hold in full: matrices cancelling each other leave a zero matrix, which only a second application
removes. -/
theorem C41_idempotent_violated :
    let l : Blocks (Fin 1) ℂ := [((0, 0, 0), fun _ _ => 1), ((0, 0, 0), fun _ _ => -1)]
    (elStandardize 0 false l).map Prod.fst = [(0, 0, 0)] ∧ elStandardize 0 false (elStandardize 0 false l) = [] := by
  intro l
  have h1 : elStandardize 0 false l = [((0, 0, 0), fun _ _ => 0)] := by
    unfold elStandardize collect
    simp only [Bool.false_eq_true, if_false, threshold_zero]
    have : l.foldl (standardizeStep dagger false) [] = [((0, 0, 0), fun _ _ => (0 : ℂ))] := by
      simp [l, standardizeStep, addTo]
    rw [this, sortDict_of_sorted]
    simp
  refine ⟨by rw [h1]; rfl, ?_⟩
  rw [h1]
  unfold elStandardize collect
  simp only [Bool.false_eq_true, if_false, threshold_zero]
  have : ([((0, 0, 0), fun _ _ => (0 : ℂ))] : Blocks (Fin 1) ℂ).foldl (standardizeStep dagger false) [] = [] := by
    simp [standardizeStep]
  rw [this, sortDict_of_sorted]
  simp

theorem threshold_bound [Fintype α] (eps : ℝ) (heps : 0 ≤ eps) (l : Blocks α ℂ) (k : Fin 3 → ℝ) (a b : α) (c : ℝ)
    (hc : ∀ e ∈ l, ∀ a b, ‖e.2 a b‖ ≤ c) :
    ‖bloch (threshold eps l) k a b - bloch l k a b‖ ≤ l.length * (eps * c) := by
  classical
  by_cases hl : l = []
  · subst hl
    simp [threshold, bloch]
  have hc0 : 0 ≤ c := by
    obtain ⟨e, he⟩ := List.exists_mem_of_ne_nil l hl
    exact (norm_nonneg _).trans (hc e he a b)
  have hmax : (maxAbs l : ℝ) ≤ c := by
    suffices h : maxAbs l ≤ (⟨c, hc0⟩ : NNReal) from h
    unfold maxAbs
    have : ∀ l : Blocks α ℂ, (∀ e ∈ l, ∀ a b, ‖e.2 a b‖ ≤ c) →
        (l.map fun e => Finset.univ.sup fun a => Finset.univ.sup fun b => ‖e.2 a b‖₊).foldr max 0 ≤
          (⟨c, hc0⟩ : NNReal) := by
      intro l
      induction l with
      | nil => intro _; exact zero_le
      | cons e l ih =>
        intro h
        rw [List.map_cons, List.foldr_cons]
        refine max_le ?_ (ih fun f hf => h f (List.mem_cons_of_mem _ hf))
        refine Finset.sup_le fun a _ => Finset.sup_le fun b _ => ?_
        exact h e List.mem_cons_self a b
    exact this l hc
  have hb : bloch (threshold eps l) k a b - bloch l k a b =
      (l.map fun e => ((if eps ≠ 0 ∧ ‖e.2 a b‖ < eps * (maxAbs l : ℝ) then 0 else e.2 a b) - e.2 a b) *
        phase e.1 k).sum := by
    unfold threshold bloch
    by_cases h0 : eps = 0
    · simp [h0]
    · simp only [ne_eq, h0, not_false_eq_true, if_true, true_and, List.map_map, Function.comp_def]
      clear hc hl hmax
      generalize (maxAbs l : ℝ) = m
      induction l with
      | nil => simp
      | cons e l ih =>
        simp only [List.map_cons, List.sum_cons]
        rw [← ih]
        ring
  rw [hb]
  generalize (maxAbs l : ℝ) = m at hmax
  clear hb hl hc
  induction l with
  | nil => simp
  | cons e l ih =>
    rw [List.map_cons, List.sum_cons, List.length_cons]
    refine (norm_add_le _ _).trans ?_
    have h1 : ‖((if eps ≠ 0 ∧ ‖e.2 a b‖ < eps * m then 0 else e.2 a b) - e.2 a b) * phase e.1 k‖ ≤ eps * c := by
      rw [norm_mul, norm_phase, mul_one]
      split
      · rename_i h
        rw [zero_sub, norm_neg]
        exact h.2.le.trans (mul_le_mul_of_nonneg_left hmax heps)
      · rw [sub_self, norm_zero]
        positivity
    push_cast
    linarith

/-- C41: with a threshold, each matrix element of `H(k)` changes by at most the number of lattice vectors times the
threshold times the maximum matrix element. -/
theorem C41_eps [Fintype α] (eps : ℝ) (heps : 0 ≤ eps) (l : Blocks α ℂ) (k : Fin 3 → ℝ) (a b : α) (c : ℝ)
    (hc : ∀ e ∈ l, ∀ a b, ‖e.2 a b‖ ≤ c) :
    ‖bloch (elStandardize eps false l) k a b - bloch l k a b‖ ≤ l.length * (eps * c) := by
  rw [elStandardize_threshold, C41_bloch]
  exact threshold_bound eps heps l k a b c hc

example : ‖bloch (elStandardize 0.1 false [((1, 0, 0), fun _ _ : Fin 1 => (2 : ℂ)), ((0, 0, 0), fun _ _ => 0.1)])
      (fun _ => 1) 0 0 - bloch [((1, 0, 0), fun _ _ : Fin 1 => (2 : ℂ)), ((0, 0, 0), fun _ _ => 0.1)] (fun _ => 1)
      0 0‖ ≤ (2 : ℕ) * (0.1 * 2) := by
  apply C41_eps 0.1 (by norm_num)
  intro e he a b
  simp at he
  rcases he with rfl | rfl <;> norm_num

/-! ### `order_orbitals`, `shift_orbitals` -/

/-- C44: `order_orbitals` permutes rows and columns of `H(k)`. -/
theorem C44_order {β : Type} (f : β → α) (l : Blocks α ℂ) (k : Fin 3 → ℝ) (a b : β) :
    bloch (order f l) k a b = bloch l k (f a) (f b) := by
  unfold bloch order
  rw [List.map_map]
  rfl

/-- C44: `order_atoms` permutes rows and columns of `D(q)`. -/
theorem C44_order_ph {β : Type} (f : β → α) (l : Blocks α ℝ) (q : Fin 3 → ℝ) (a b : β) :
    dynMat (order f l) q a b = dynMat l q (f a) (f b) := by
  unfold dynMat bloch order
  rw [List.map_map, List.map_map, List.map_map]
  rfl

/-- C44: the inverse permutation restores the model. -/
theorem C44_order_undo {K : Type} (f : Equiv.Perm α) (l : Blocks α K) : order f.symm (order f l) = l := by
  unfold order
  rw [List.map_map]
  conv_rhs => rw [← List.map_id l]
  apply List.map_congr_left
  intro e _
  simp

/-- C44: a permutation of the orbitals leaves the spectrum unchanged. -/
theorem C44_order_spectrum [Fintype α] [DecidableEq α] (f : Equiv.Perm α) (l : Blocks α ℂ) (k : Fin 3 → ℝ) :
    (Matrix.of (bloch (order f l) k)).charpoly = (Matrix.of (bloch l k)).charpoly := by
  have : Matrix.of (bloch (order f l) k) = Matrix.reindex f.symm f.symm (Matrix.of (bloch l k)) := by
    ext a b
    simp [Matrix.of_apply, C44_order]
  rw [this, Matrix.charpoly_reindex]

example : bloch (order (Equiv.swap 0 1) [((0, 0, 0), fun a b : Fin 2 => if a < b then (1 : ℂ) else 0)])
    (fun _ => 0) 1 0 = 1 := by
  rw [C44_order]
  simp [bloch, phase]

/-- Specification: phase factor of an orbital, the same for all orbitals that are shifted. -/
noncomputable def shiftPhase (s : α → Bool) (S : V3) (k : Fin 3 → ℝ) (a : α) : ℂ := if s a then phase S k else 1

theorem wsum_map {K K' : Type} (g : V3 → (α → α → K) → ℂ) (f : V3 × (α → α → K') → V3 × (α → α → K)) (l : Blocks α K') :
    wsum g (l.map f) = (l.map fun e => g (f e).1 (f e).2).sum := by
  unfold wsum
  rw [List.map_map]
  rfl

theorem wsum_shift {K : Type} [AddMonoid K] (s : α → Bool) (S : V3) (l : Blocks α K) (c : K →+ ℂ) (k : Fin 3 → ℝ)
    (a b : α) :
    wsum (fun R M => c (M a b) * phase R k) (shiftBlocks s S l) =
      shiftPhase s S k a * wsum (fun R M => c (M a b) * phase R k) l * star (shiftPhase s S k b) := by
  unfold shiftBlocks
  rw [wsum_append, wsum_append, wsum_map, wsum_map, wsum_map]
  unfold wsum shiftPhase
  rw [← List.sum_map_add, ← List.sum_map_add, ← List.sum_map_mul_left, ← List.sum_map_mul_right]
  congr 1
  apply List.map_congr_left
  intro e _
  simp only [phase_sub, phase_add]
  cases s a <;> cases s b <;> simp
  · ring
  · ring
  · have := phase_mul_star S k
    rw [Complex.star_def] at this
    linear_combination (-(c (e.2 a b) * phase e.1 k)) * this

/-- C44: `shift_orbitals` multiplies rows and columns of `H(k)` by phase factors. -/
theorem C44_shift [Fintype α] (s : α → Bool) (S : V3) (l : Blocks α ℂ) (k : Fin 3 → ℝ) (a b : α) :
    bloch (elShift s S l) k a b = shiftPhase s S k a * bloch l k a b * star (shiftPhase s S k b) := by
  unfold elShift
  rw [C41_bloch]
  exact wsum_shift s S l (AddMonoidHom.id ℂ) k a b

/-- C44: `shift_atoms` multiplies rows and columns of `D(q)` by phase factors. -/
theorem C44_shift_ph [Fintype α] (s : α → Bool) (S : V3) (l : Blocks α ℝ) (q : Fin 3 → ℝ) (a b : α) :
    dynMat (phShift s S l) q a b = shiftPhase s S q a * dynMat l q a b * star (shiftPhase s S q b) := by
  unfold phShift
  rw [C41_bloch_ph, dynMat_eq, dynMat_eq]
  exact wsum_shift s S l Complex.ofRealHom.toAddMonoidHom q a b

theorem shiftPhase_mul_star (s : α → Bool) (S : V3) (k : Fin 3 → ℝ) (a : α) :
    shiftPhase s S k a * star (shiftPhase s S k a) = 1 := by
  unfold shiftPhase
  split
  · exact phase_mul_star S k
  · simp

theorem shiftPhase_vneg (s : α → Bool) (S : V3) (k : Fin 3 → ℝ) (a : α) :
    shiftPhase s (vneg S) k a = star (shiftPhase s S k a) := by
  unfold shiftPhase
  split
  · exact (star_phase S k).symm
  · simp

/-- C44: shifting back restores `H(k)`. -/
theorem C44_shift_undo [Fintype α] (s : α → Bool) (S : V3) (l : Blocks α ℂ) (k : Fin 3 → ℝ) (a b : α) :
    bloch (elShift s (vneg S) (elShift s S l)) k a b = bloch l k a b := by
  rw [C44_shift, C44_shift, shiftPhase_vneg, shiftPhase_vneg, star_star]
  have h1 := shiftPhase_mul_star s S k a
  have h2 := shiftPhase_mul_star s S k b
  linear_combination (bloch l k a b * (shiftPhase s S k b * star (shiftPhase s S k b))) * h1 + bloch l k a b * h2

theorem C44_shift_undo_ph [Fintype α] (s : α → Bool) (S : V3) (l : Blocks α ℝ) (q : Fin 3 → ℝ) (a b : α) :
    dynMat (phShift s (vneg S) (phShift s S l)) q a b = dynMat l q a b := by
  rw [C44_shift_ph, C44_shift_ph, shiftPhase_vneg, shiftPhase_vneg, star_star]
  have h1 := shiftPhase_mul_star s S q a
  have h2 := shiftPhase_mul_star s S q b
  linear_combination (dynMat l q a b * (shiftPhase s S q b * star (shiftPhase s S q b))) * h1 + dynMat l q a b * h2

/-- C44: shifting orbitals leaves the spectrum unchanged. -/
theorem C44_shift_spectrum [Fintype α] [DecidableEq α] (s : α → Bool) (S : V3) (l : Blocks α ℂ) (k : Fin 3 → ℝ) :
    (Matrix.of (bloch (elShift s S l) k)).charpoly = (Matrix.of (bloch l k)).charpoly := by
  have hu : Matrix.diagonal (shiftPhase s S k) * Matrix.diagonal (fun a => star (shiftPhase s S k a)) = 1 := by
    rw [Matrix.diagonal_mul_diagonal]
    simp only [shiftPhase_mul_star, Matrix.diagonal_one]
  have hu' := mul_eq_one_comm.1 hu
  have : Matrix.of (bloch (elShift s S l) k) = Matrix.diagonal (shiftPhase s S k) * Matrix.of (bloch l k) *
      Matrix.diagonal (fun a => star (shiftPhase s S k a)) := by
    ext a b
    rw [Matrix.of_apply, C44_shift]
    rw [Matrix.mul_diagonal, Matrix.diagonal_mul, Matrix.of_apply]
  rw [this, Matrix.charpoly_mul_comm, ← Matrix.mul_assoc, hu', Matrix.one_mul]

example : bloch (elShift (fun a : Fin 2 => a = 0) (1, 0, 0) [((0, 0, 0), fun _ _ => (1 : ℂ))]) (fun _ => Real.pi) 0 1 =
    -1 := by
  rw [C44_shift]
  simp [bloch, shiftPhase, phase, mul_comm Complex.I]

/-! ### Velocity operator -/

/-- C72: `v` is the derivative of `H` with respect to the components of the wave vector. -/
theorem C72_velocity (l : Blocks α ℂ) (k : Fin 3 → ℝ) (x : Fin 3) (a b : α) :
    HasDerivAt (fun t : ℝ => bloch l (Function.update k x t) a b) (velocity l x k a b) (k x) := by
  have hp : ∀ R : V3, HasDerivAt (fun t : ℝ => phase R (Function.update k x t))
      (Complex.I * ((![R.1, R.2.1, R.2.2] x : Int) : ℂ) * phase R k) (k x) := by
    intro R
    have h0 : ∀ y : Fin 3, HasDerivAt (fun t : ℝ => ((Function.update k x t y : ℝ) : ℂ)) (if y = x then 1 else 0) (k x) := by
      intro y
      by_cases h : y = x
      · subst h
        simp only [Function.update_self, if_true]
        exact (hasDerivAt_id (k y)).ofReal_comp
      · simp only [Function.update_of_ne h, if_neg h]
        exact hasDerivAt_const _ _
    have h1 := ((((h0 0).const_mul (R.1 : ℂ)).add ((h0 1).const_mul (R.2.1 : ℂ))).add
      ((h0 2).const_mul (R.2.2 : ℂ))).const_mul Complex.I
    have h2 := h1.cexp
    have e : Function.update k x (k x) = k := Function.update_eq_self x k
    unfold phase
    refine h2.congr_deriv ?_
    simp only [Pi.add_apply]
    rw [e]
    fin_cases x <;> simp <;> ring
  unfold bloch velocity
  induction l with
  | nil => exact hasDerivAt_const _ _
  | cons e l ih =>
    simp only [List.map_cons, List.sum_cons]
    refine (((hp e.1).const_mul (e.2 a b)).add ih).congr_deriv ?_
    ring

example : HasDerivAt (fun t : ℝ => bloch [((2, 0, 0), fun _ _ : Fin 1 => (1 : ℂ))] (Function.update (fun _ => 0) 0 t)
    0 0) (2 * Complex.I) 0 := by
  refine (C72_velocity _ (fun _ => 0) 0 0 0).congr_deriv ?_
  simp [velocity, phase]
  ring

end Verif.TB
