import Verif.Stack.Model
import Mathlib.Algebra.BigOperators.Field
import Mathlib.Algebra.Order.BigOperators.Group.Finset
import Mathlib.Data.Rat.Floor
import Mathlib.Data.Fintype.Card
import Mathlib.Tactic.Ring
import Mathlib.Tactic.Linarith
import Mathlib.Tactic.FieldSimp
import Mathlib.Tactic.LinearCombination
import Mathlib.Tactic.NormNum
import Mathlib.Data.Fin.VecNotation

/-! # Property C22 -/

namespace Verif.Stack

variable {K : Type} [Field K] [LinearOrder K] [IsStrictOrderedRing K] [FloorRing K]

theorem fmod_nonneg (x L : K) (hL : 0 < L) : 0 ≤ fmod x L := by
  have h := Int.floor_le (x / L)
  rw [le_div_iff₀ hL] at h
  unfold fmod; linarith

theorem fmod_lt (x L : K) (hL : 0 < L) : fmod x L < L := by
  have h := Int.lt_floor_add_one (x / L)
  rw [div_lt_iff₀ hL] at h
  unfold fmod; linarith

omit [FloorRing K] in
/-- Closed form of the stackings. -/
theorem stacking_apply {n : Nat} (L : K) (p : Fin n → K) (order : Fin n → Fin n)
    (ho : Function.Injective order) (m : Nat) (hm : m ≤ n) (i : Fin n) :
    stacking L p order m (order i) =
      if i.val < m then p (order i) + L else p (order i) := by
  induction m with
  | zero => simp [stacking]
  | succ m ih =>
    have h : m < n := hm
    simp only [stacking, dif_pos h]
    by_cases e : i = ⟨m, h⟩
    · subst e
      rw [Function.update_self, ih (by omega)]
      simp
    · rw [Function.update_of_ne (fun h' => e (ho h')), ih (by omega)]
      have hne : i.val ≠ m := fun h' => e (Fin.ext h')
      by_cases hlt : i.val < m
      · rw [if_pos hlt, if_pos (by omega)]
      · rw [if_neg hlt, if_neg (by omega)]

omit [IsStrictOrderedRing K] [FloorRing K] in
theorem argmin_spec (f : Nat → K) (n : Nat) : argmin f n ≤ n ∧ ∀ m ≤ n, f (argmin f n) ≤ f m := by
  induction n with
  | zero => refine ⟨le_rfl, fun m hm => ?_⟩; rw [Nat.le_zero.1 hm]; exact le_rfl
  | succ n ih =>
    obtain ⟨h1, h2⟩ := ih
    simp only [argmin]
    split
    · next h =>
      refine ⟨le_rfl, fun m hm => ?_⟩
      rcases Nat.lt_or_ge m (n + 1) with h' | h'
      · exact h.le.trans (h2 m (by omega))
      · have : m = n + 1 := by omega
        rw [this]
    · next h =>
      refine ⟨by omega, fun m hm => ?_⟩
      rcases Nat.lt_or_ge m (n + 1) with h' | h'
      · exact h2 m (by omega)
      · have : m = n + 1 := by omega
        rw [this]; exact not_lt.1 h

omit [LinearOrder K] [IsStrictOrderedRing K] [FloorRing K] in
theorem mean_shift [CharZero K] {n : Nat} (p : Fin (n + 1) → K) (c : K) :
    mean (fun i => p i + c) = mean p + c := by
  have hn : ((n + 1 : Nat) : K) ≠ 0 := Nat.cast_ne_zero.2 (by omega)
  unfold mean
  rw [Finset.sum_add_distrib, Finset.sum_const, Finset.card_univ, Fintype.card_fin, nsmul_eq_mul,
    add_div, mul_comm, mul_div_assoc, div_self hn, mul_one]

omit [LinearOrder K] [IsStrictOrderedRing K] [FloorRing K] in
theorem var_shift [CharZero K] {n : Nat} (p : Fin (n + 1) → K) (c : K) :
    var (fun i => p i + c) = var p := by
  unfold var
  rw [mean_shift]
  simp

omit [FloorRing K] in
/-- The mean minimises the sum of squared deviations. -/
theorem var_le {n : Nat} (p : Fin (n + 1) → K) (c : K) :
    var p ≤ (∑ i, (p i - c) ^ 2) / (n + 1 : Nat) := by
  have hn : (0 : K) < ((n + 1 : Nat) : K) := Nat.cast_pos.2 (by omega)
  unfold var
  rw [div_le_div_iff_of_pos_right hn]
  have hs : ∑ i, p i = (n + 1 : Nat) * mean p := by
    unfold mean; field_simp
  have e : ∀ i, (p i - c) ^ 2 =
      (p i - mean p) ^ 2 + (2 * (mean p - c) * p i + (c ^ 2 - (mean p) ^ 2)) := by
    intro i; ring
  have h2 : ∑ i, (p i - c) ^ 2 = ∑ i, (p i - mean p) ^ 2 + (n + 1 : Nat) * (mean p - c) ^ 2 := by
    rw [Finset.sum_congr rfl (fun i _ => e i), Finset.sum_add_distrib, Finset.sum_add_distrib,
      ← Finset.mul_sum, hs, Finset.sum_const, Finset.card_univ, Fintype.card_fin, nsmul_eq_mul]
    ring
  rw [h2]
  have := mul_nonneg hn.le (sq_nonneg (mean p - c))
  linarith

omit [FloorRing K] in
/-- Elements below a threshold form a prefix of the sorted order. -/
theorem exists_prefix {n : Nat} (p : Fin n → K) (order : Fin n → Fin n) (h : IsArgsort p order)
    (r : K) : ∃ m ≤ n, ∀ i : Fin n, i.val < m ↔ p (order i) < r := by
  classical
  have key : ∀ k ≤ n, ∃ m ≤ k, ∀ i : Fin n, i.val < k → (i.val < m ↔ p (order i) < r) := by
    intro k
    induction k with
    | zero => intro _; exact ⟨0, le_rfl, fun i hi => by omega⟩
    | succ k ih =>
      intro hk
      obtain ⟨m, hm, hall⟩ := ih (by omega)
      by_cases hlt : p (order ⟨k, hk⟩) < r
      · refine ⟨k + 1, le_rfl, fun i hi => ⟨fun _ => ?_, fun _ => hi⟩⟩
        exact lt_of_le_of_lt (h.2 i ⟨k, hk⟩ (by
          show i.val ≤ k
          omega)) hlt
      · refine ⟨m, by omega, fun i hi => ?_⟩
        rcases Nat.lt_or_ge i.val k with h1 | h1
        · exact hall i h1
        · have e : i = ⟨k, hk⟩ := Fin.ext (by show i.val = k; omega)
          subst e
          constructor
          · intro h'; exact absurd h' (by show ¬ (k < m); omega)
          · intro h'; exact absurd h' hlt
  obtain ⟨m, hm, hall⟩ := key n le_rfl
  exact ⟨m, hm, fun i => hall i i.isLt⟩

/-- C22: every returned point differs from the given point by an integer multiple of the period,
and no choice of integer multiples yields a smaller variance (equivalently, standard deviation).

`order` is whatever `np.argsort` returns for the points modulo the period. -/
theorem C22_stack {n : Nat} (points : Fin (n + 1) → K) (L : K) (hL : 0 < L)
    (order : Fin (n + 1) → Fin (n + 1)) (ho : IsArgsort (fun i => fmod (points i) L) order) :
    (∀ i, ∃ z : ℤ, stack points L order i = points i + z * L) ∧
    ∀ z : Fin (n + 1) → ℤ, var (stack points L order) ≤ var (fun i => points i + z i * L) := by
  set p : Fin (n + 1) → K := fun i => fmod (points i) L with hp
  obtain ⟨hbound, hmin⟩ := argmin_spec (fun m => var (stacking L p order m)) n
  have hst : stack points L order =
    stacking L p order (argmin (fun m => var (stacking L p order m)) n) := rfl
  constructor
  · intro i
    obtain ⟨j, rfl⟩ := ho.1.2 i
    rw [hst, stacking_apply L p order ho.1.1 _ (by omega)]
    split
    · refine ⟨1 - ⌊points (order j) / L⌋, ?_⟩
      simp only [hp, fmod]; push_cast; ring
    · refine ⟨-⌊points (order j) / L⌋, ?_⟩
      simp only [hp, fmod]; push_cast; ring
  · intro z
    set x : Fin (n + 1) → K := fun i => points i + z i * L with hx
    -- interval of one period around the mean
    set t := mean x - L / 2 with ht
    set r := fmod t L with hr
    set c := ⌊t / L⌋ with hc
    have htr : t = c * L + r := by simp only [hr, fmod, hc]; ring
    have hr0 : 0 ≤ r := fmod_nonneg t L hL
    have hrL : r < L := fmod_lt t L hL
    obtain ⟨m, hm, hpre⟩ := exists_prefix p order ho r
    -- nearest representatives
    let y : Fin (n + 1) → K := fun i => (if p i < r then p i + L else p i) + c * L
    have hy : ∀ i, t ≤ y i ∧ y i < t + L := by
      intro i
      have h0 := fmod_nonneg (points i) L hL
      have h1 := fmod_lt (points i) L hL
      have h0' : 0 ≤ p i := h0
      have h1' : p i < L := h1
      simp only [y]
      split
      · constructor <;> linarith
      · constructor <;> linarith
    have hxy : ∀ i, ∃ w : ℤ, x i = y i + w * L := by
      intro i
      simp only [hx, y]
      split
      · refine ⟨z i + ⌊points i / L⌋ - 1 - c, ?_⟩
        simp only [hp, fmod]; push_cast; ring
      · refine ⟨z i + ⌊points i / L⌋ - c, ?_⟩
        simp only [hp, fmod]; push_cast; ring
    have hsq : ∀ i, (y i - mean x) ^ 2 ≤ (x i - mean x) ^ 2 := by
      intro i
      obtain ⟨w, hw⟩ := hxy i
      obtain ⟨h1, h2⟩ := hy i
      rw [hw]
      have hb1 : -(L / 2) ≤ y i - mean x := by rw [ht] at h1; linarith
      have hb2 : y i - mean x ≤ L / 2 := by rw [ht] at h2; linarith
      have e : (y i + w * L - mean x) ^ 2 - (y i - mean x) ^ 2 =
          w * L * (2 * (y i - mean x) + w * L) := by ring
      have : 0 ≤ (w : K) * L * (2 * (y i - mean x) + w * L) := by
        rcases lt_trichotomy w 0 with h | h | h
        · have hw1 : (w : K) ≤ -1 := by exact_mod_cast (by omega : w ≤ -1)
          have a1 : (w : K) * L ≤ -L := by nlinarith
          exact mul_nonneg_of_nonpos_of_nonpos (by linarith) (by linarith)
        · subst h; simp
        · have hw1 : (1 : K) ≤ w := by exact_mod_cast (by omega : 1 ≤ w)
          have a1 : L ≤ (w : K) * L := by nlinarith
          exact mul_nonneg (by linarith) (by linarith)
      linarith
    have hvy : var y ≤ var x := by
      refine (var_le y (mean x)).trans ?_
      unfold var
      have hn : (0 : K) < ((n + 1 : Nat) : K) := Nat.cast_pos.2 (by omega)
      rw [div_le_div_iff_of_pos_right hn]
      exact Finset.sum_le_sum fun i _ => hsq i
    -- `y` is one of the stackings up to a common shift
    have hex : ∃ m' ≤ n, var (stacking L p order m') = var y := by
      rcases Nat.lt_or_ge n m with h | h
      · have hmn : m = n + 1 := by omega
        refine ⟨0, by omega, ?_⟩
        have : y = fun i => stacking L p order 0 i + (L + c * L) := by
          funext i
          obtain ⟨j, rfl⟩ := ho.1.2 i
          have := (hpre j).1 (by omega)
          simp only [y, stacking, if_pos this]; ring
        rw [this, var_shift]
      · refine ⟨m, h, ?_⟩
        have : y = fun i => stacking L p order m i + c * L := by
          funext i
          obtain ⟨j, rfl⟩ := ho.1.2 i
          rw [stacking_apply L p order ho.1.1 m (by omega) j]
          simp only [y]
          by_cases hj : j.val < m
          · rw [if_pos hj, if_pos ((hpre j).1 hj)]
          · rw [if_neg hj, if_neg (fun h' => hj ((hpre j).2 h'))]
        rw [this, var_shift]
    obtain ⟨m', hm', he⟩ := hex
    rw [hst]
    exact (hmin m' hm').trans (he.le.trans hvy)

/-- The example of the documentation, `stack(3, 5, 9, 12, period=10)`. -/
example : (fun i => stack (K := ℚ) ![3, 5, 9, 12] 10 ![3, 0, 1, 2] i) = ![13, 15, 9, 12] := by
  decide +kernel

example : IsArgsort (K := ℚ) (fun i => fmod (![3, 5, 9, 12] i) 10) ![3, 0, 1, 2] := by
  refine ⟨⟨by decide, by decide⟩, ?_⟩
  decide +kernel

end Verif.Stack
