import Verif.Diag.SelfEnergy
import Mathlib.Analysis.Calculus.LHopital
import Mathlib.Analysis.Calculus.LocalExtr.Rolle
import Mathlib.Topology.Order.LeftRight

/-!
# Triangle diagram (C53)
-/

namespace Verif.Diag

open Verif.Occ (gauss gaussDelta gaussDelta_pos gaussDeltaPrime C35_gauss C36_gauss)
open Filter Topology

/-- Specification: second divided difference by repeated difference quotients, with derivatives (`dslope`) for equal
arguments. -/
noncomputable def divDiff2 (F : ℝ → ℝ) (a b c : ℝ) : ℝ := dslope (dslope F a) b c

/-- The factor of the code for `eps = 0`, a function and its derivatives. -/
noncomputable def chi0 (F D P : ℝ → ℝ) (a b c : ℝ) : ℝ :=
  chiTriangle 0 a b c (F a) (F b) (F c) (-D a) (-D b) (-D c) (-P a)

theorem triangleFactor_chi0 (kT : ℝ) (occ delta deltaPrime : ℝ → ℝ) (a b c : ℝ) :
    triangleFactor 0 kT occ delta deltaPrime a b c = chi0 (fun x => occ (x / kT)) (fun x => delta (x / kT) / -kT)
      (fun x => -(deltaPrime (x / kT) / kT ^ 2)) a b c := by
  unfold triangleFactor chi0
  simp only [div_neg, neg_neg]

section
variable (F D P : ℝ → ℝ)

theorem chi0_ne (a b c : ℝ) (h1 : b ≠ c) (h2 : c ≠ a) (h3 : a ≠ b) : chi0 F D P a b c =
    (a * (F b - F c) + b * (F c - F a) + c * (F a - F b)) / ((b - c) * (c - a) * (a - b)) := by
  unfold chi0 chiTriangle
  simp only [gt_iff_lt, abs_pos, sub_ne_zero]
  rw [if_pos ⟨h1, h2, h3⟩]

theorem chi0_bc (a b : ℝ) (h : a ≠ b) : chi0 F D P a b b = ((F a - F b) / (a - b) - D b) / (a - b) := by
  unfold chi0 chiTriangle
  simp only [gt_iff_lt, abs_pos, sub_ne_zero]
  rw [if_neg fun h' => h'.1 rfl, if_pos ⟨fun h' => h' rfl, h.symm, h⟩]
  ring

theorem chi0_ca (a b : ℝ) (h : a ≠ b) : chi0 F D P a b a = ((F b - F a) / (b - a) - D a) / (b - a) := by
  unfold chi0 chiTriangle
  simp only [gt_iff_lt, abs_pos, sub_ne_zero]
  rw [if_neg fun h' => h'.2.1 rfl, if_neg fun h' => h'.2.1 rfl, if_pos ⟨h.symm, fun h' => h' rfl, h⟩]
  ring

theorem chi0_ab (a c : ℝ) (h : a ≠ c) : chi0 F D P a a c = ((F c - F a) / (c - a) - D a) / (c - a) := by
  unfold chi0 chiTriangle
  simp only [gt_iff_lt, abs_pos, sub_ne_zero]
  rw [if_neg fun h' => h'.2.2 rfl, if_neg fun h' => h'.2.2 rfl, if_neg fun h' => h'.2.2 rfl,
    if_pos ⟨h, h.symm, fun h' => h' rfl⟩]
  ring

theorem chi0_eq (a : ℝ) : chi0 F D P a a a = P a / 2 := by
  unfold chi0 chiTriangle
  simp
  ring

theorem chi0_swap (a b c : ℝ) : chi0 F D P b a c = chi0 F D P a b c := by
  by_cases h1 : a = b
  · rw [h1]
  by_cases h2 : b = c
  · subst h2
    rw [chi0_bc _ _ _ _ _ h1, chi0_ca _ _ _ _ _ (Ne.symm h1)]
  by_cases h3 : c = a
  · subst h3
    rw [chi0_ca _ _ _ _ _ h1, chi0_bc _ _ _ _ _ (Ne.symm h1)]
  rw [chi0_ne _ _ _ _ _ _ (Ne.symm h3) (Ne.symm h2) (Ne.symm h1), chi0_ne _ _ _ _ _ _ h2 h3 h1,
    ← neg_div_neg_eq]
  congr 1 <;> ring

theorem chi0_swap' (a b c : ℝ) : chi0 F D P a c b = chi0 F D P a b c := by
  by_cases h2 : b = c
  · rw [h2]
  by_cases h1 : a = b
  · subst h1
    rw [chi0_ca _ _ _ _ _ h2, chi0_ab _ _ _ _ _ h2]
  by_cases h3 : c = a
  · subst h3
    rw [chi0_ca _ _ _ _ _ h1, chi0_ab _ _ _ _ _ h1]
  rw [chi0_ne _ _ _ _ _ _ (Ne.symm h2) (Ne.symm h1) (Ne.symm h3), chi0_ne _ _ _ _ _ _ h2 h3 h1,
    ← neg_div_neg_eq]
  congr 1 <;> ring

variable {F D P} (hF : ∀ x, HasDerivAt F (D x) x) (hD : ∀ x, HasDerivAt D (P x) x)

include hF in
theorem dslope_symm (a b : ℝ) : dslope F a b = dslope F b a := by
  by_cases h : a = b
  · rw [h]
  · rw [dslope_of_ne _ (Ne.symm h), dslope_of_ne _ h, slope_comm]

include hF in
theorem chi0_quot (a b c : ℝ) (h : a ≠ c) : chi0 F D P a b c = (dslope F a b - dslope F b c) / (a - c) := by
  by_cases h1 : a = b
  · subst h1
    rw [chi0_ab _ _ _ _ _ h, dslope_same, (hF a).deriv, dslope_of_ne _ h.symm, slope_def_field, ← neg_sub c a,
      ← neg_sub _ (D a), neg_div_neg_eq]
  by_cases h2 : b = c
  · subst h2
    rw [chi0_bc _ _ _ _ _ h, dslope_same, (hF b).deriv, dslope_of_ne _ h.symm, slope_def_field, ← neg_sub b a,
      ← neg_sub (F b), neg_div_neg_eq]
  rw [chi0_ne _ _ _ _ _ _ h2 h.symm h1, dslope_of_ne _ (Ne.symm h1), dslope_of_ne _ (Ne.symm h2), slope_def_field,
    slope_def_field]
  have := sub_ne_zero.2 h1
  have := sub_ne_zero.2 h2
  have := sub_ne_zero.2 h
  have := sub_ne_zero.2 (Ne.symm h1)
  have := sub_ne_zero.2 (Ne.symm h2)
  have := sub_ne_zero.2 (Ne.symm h)
  field_simp
  ring

include hF hD in
theorem hasDerivAt_dslope (a : ℝ) : HasDerivAt (dslope F a) (P a / 2) a := by
  rw [hasDerivAt_iff_tendsto_slope]
  have h1 : Tendsto (fun x => (F x - F a - D a * (x - a)) / (x - a) ^ 2) (𝓝[≠] a) (𝓝 (P a / 2)) := by
    refine HasDerivAt.lhopital_zero_nhdsNE (f' := fun x => D x - D a) (g' := fun x => 2 * (x - a)) ?_ ?_ ?_ ?_ ?_ ?_
    · refine Eventually.of_forall fun x => ?_
      have := ((hF x).sub_const (F a)).sub (((hasDerivAt_id x).sub_const a).const_mul (D a))
      exact this.congr_deriv (by simp)
    · refine Eventually.of_forall fun x => ?_
      have := ((hasDerivAt_id x).sub_const a).pow 2
      exact this.congr_deriv (by simp)
    · filter_upwards [self_mem_nhdsWithin] with x hx
      exact mul_ne_zero two_ne_zero (sub_ne_zero.2 hx)
    · have : Tendsto (fun x => F x - F a - D a * (x - a)) (𝓝 a) (𝓝 (F a - F a - D a * (a - a))) :=
        (((hF a).continuousAt.tendsto.sub_const _).sub ((tendsto_id.sub_const a).const_mul _))
      simp only [sub_self, mul_zero] at this
      exact this.mono_left nhdsWithin_le_nhds
    · have : Tendsto (fun x : ℝ => (x - a) ^ 2) (𝓝 a) (𝓝 ((a - a) ^ 2)) := (tendsto_id.sub_const a).pow 2
      simp only [sub_self, ne_eq, OfNat.ofNat_ne_zero, not_false_eq_true, zero_pow] at this
      exact this.mono_left nhdsWithin_le_nhds
    · have := (hasDerivAt_iff_tendsto_slope.1 (hD a)).div_const 2
      refine this.congr' ?_
      filter_upwards [self_mem_nhdsWithin] with x hx
      rw [slope_def_field]
      have := sub_ne_zero.2 (show x ≠ a from hx)
      field_simp
  refine h1.congr' ?_
  filter_upwards [self_mem_nhdsWithin] with x hx
  have hx : x ≠ a := hx
  have := sub_ne_zero.2 hx
  rw [slope_def_field, dslope_of_ne _ hx, dslope_same, (hF a).deriv, slope_def_field]
  field_simp

include hF hD in
theorem chi0_divDiff2 (a b c : ℝ) : chi0 F D P a b c = divDiff2 F a b c := by
  unfold divDiff2
  by_cases h2 : c = b
  · subst h2
    rw [dslope_same]
    by_cases h1 : c = a
    · subst h1
      rw [(hasDerivAt_dslope hF hD c).deriv, chi0_eq]
    · have h : HasDerivAt (dslope F a) ((D c * (c - a) - (F c - F a)) / (c - a) ^ 2) c := by
        have h0 : HasDerivAt (fun x => (F x - F a) / (x - a)) ((D c * (c - a) - (F c - F a)) / (c - a) ^ 2) c := by
          have := ((hF c).sub_const (F a)).div ((hasDerivAt_id c).sub_const a) (sub_ne_zero.2 h1)
          exact this.congr_deriv (by simp)
        refine h0.congr_of_eventuallyEq ?_
        filter_upwards [isOpen_ne.mem_nhds h1] with x hx
        rw [dslope_of_ne _ hx, slope_def_field]
      rw [h.deriv, chi0_bc _ _ _ _ _ (Ne.symm h1)]
      have := sub_ne_zero.2 h1
      have := sub_ne_zero.2 (Ne.symm h1)
      field_simp
      ring
  · rw [dslope_of_ne _ h2, slope_def_field]
    rw [← chi0_swap, chi0_quot hF b a c (Ne.symm h2), dslope_symm hF b a, ← neg_sub c b, ← neg_sub (dslope F a c),
      neg_div_neg_eq]

/-! ### Continuity -/

include hF hD in
theorem continuous_dslope : Continuous fun x : ℝ × ℝ => dslope F x.1 x.2 := by
  rw [continuous_iff_continuousAt]
  rintro ⟨a, b⟩
  have hFc : Continuous F := continuous_iff_continuousAt.2 fun x => (hF x).continuousAt
  have hDc : ContinuousAt D a := (hD a).continuousAt
  by_cases h : b = a
  · subst h
    unfold ContinuousAt
    simp only [dslope_same, (hF b).deriv]
    rw [Metric.tendsto_nhds]
    intro ε hε
    obtain ⟨δ, hδ, hball⟩ := Metric.continuousAt_iff.1 hDc ε hε
    have : Metric.ball (b, b) δ ∈ 𝓝 ((b, b) : ℝ × ℝ) := Metric.ball_mem_nhds _ hδ
    filter_upwards [this] with x hx
    have hx1 : dist x.1 b < δ := lt_of_le_of_lt (le_max_left _ _) hx
    have hx2 : dist x.2 b < δ := lt_of_le_of_lt (le_max_right _ _) hx
    have key : ∀ u v : ℝ, u < v → dist u b < δ → dist v b < δ → dist (slope F u v) (D b) < ε := by
      intro u v huv hu hv
      obtain ⟨y, hy, hs⟩ := exists_hasDerivAt_eq_slope F D huv (fun z _ => (hF z).continuousAt.continuousWithinAt)
        fun z _ => hF z
      rw [slope_def_field, ← hs]
      apply hball
      rw [Real.dist_eq, abs_lt] at hu hv ⊢
      exact ⟨by linarith [hy.1], by linarith [hy.2]⟩
    rcases lt_trichotomy x.1 x.2 with h | h | h
    · rw [dslope_of_ne _ h.ne']
      exact key _ _ h hx1 hx2
    · rw [h, dslope_same, (hF _).deriv]
      exact hball hx2
    · rw [dslope_of_ne _ h.ne, slope_comm]
      exact key _ _ h hx2 hx1
  · have h0 : ContinuousAt (fun x : ℝ × ℝ => (F x.2 - F x.1) / (x.2 - x.1)) (a, b) := by
      refine ContinuousAt.div ?_ ?_ (sub_ne_zero.2 h)
      · exact ((hFc.comp continuous_snd).sub (hFc.comp continuous_fst)).continuousAt
      · exact (continuous_snd.sub continuous_fst).continuousAt
    refine h0.congr ?_
    have : {x : ℝ × ℝ | x.2 ≠ x.1} ∈ 𝓝 (a, b) := (isOpen_ne_fun continuous_snd continuous_fst).mem_nhds h
    filter_upwards [this] with x hx
    rw [dslope_of_ne _ hx, slope_def_field]

include hF hD in
theorem rolle3 (a b c : ℝ) (hab : a < b) (hbc : b < c) (ha : F a = 0) (hb : F b = 0) (hc : F c = 0) :
    ∃ x, a ≤ x ∧ x ≤ c ∧ P x = 0 := by
  have hFc : Continuous F := continuous_iff_continuousAt.2 fun x => (hF x).continuousAt
  have hDc : Continuous D := continuous_iff_continuousAt.2 fun x => (hD x).continuousAt
  obtain ⟨u, hu, hu0⟩ := exists_hasDerivAt_eq_zero hab hFc.continuousOn (ha.trans hb.symm) fun x _ => hF x
  obtain ⟨v, hv, hv0⟩ := exists_hasDerivAt_eq_zero hbc hFc.continuousOn (hb.trans hc.symm) fun x _ => hF x
  obtain ⟨x, hx, hx0⟩ := exists_hasDerivAt_eq_zero (hu.2.trans hv.1) hDc.continuousOn (hu0.trans hv0.symm) fun x _ => hD x
  exact ⟨x, (hu.1.trans hx.1).le, (hx.2.trans hv.2).le, hx0⟩

include hF hD in
theorem rolle2 (a c : ℝ) (hac : a ≠ c) (ha : F a = 0) (hb : D a = 0) (hc : F c = 0) :
    ∃ x, min a c ≤ x ∧ x ≤ max a c ∧ P x = 0 := by
  have hFc : Continuous F := continuous_iff_continuousAt.2 fun x => (hF x).continuousAt
  have hDc : Continuous D := continuous_iff_continuousAt.2 fun x => (hD x).continuousAt
  rcases lt_or_gt_of_ne hac with h | h
  · obtain ⟨u, hu, hu0⟩ := exists_hasDerivAt_eq_zero h hFc.continuousOn (ha.trans hc.symm) fun x _ => hF x
    obtain ⟨x, hx, hx0⟩ := exists_hasDerivAt_eq_zero hu.1 hDc.continuousOn (hb.trans hu0.symm) fun x _ => hD x
    exact ⟨x, (min_le_left _ _).trans hx.1.le, (hx.2.trans hu.2).le.trans (le_max_right _ _), hx0⟩
  · obtain ⟨u, hu, hu0⟩ := exists_hasDerivAt_eq_zero h hFc.continuousOn (hc.trans ha.symm) fun x _ => hF x
    obtain ⟨x, hx, hx0⟩ := exists_hasDerivAt_eq_zero hu.2 hDc.continuousOn (hu0.trans hb.symm) fun x _ => hD x
    exact ⟨x, (min_le_right _ _).trans (hu.1.trans hx.1).le, hx.2.le.trans (le_max_left _ _), hx0⟩

include hF hD in
theorem chi0_mean_ab (a c : ℝ) (h : a ≠ c) : ∃ x, min a c ≤ x ∧ x ≤ max a c ∧ chi0 F D P a a c = P x / 2 := by
  set t := chi0 F D P a a c with ht
  have htv := chi0_ab F D P a c h
  rw [← ht] at htv
  have h0 := sub_ne_zero.2 (Ne.symm h)
  obtain ⟨x, h1, h2, h3⟩ := rolle2 (F := fun x => F x - F a - D a * (x - a) - t * (x - a) ^ 2)
    (D := fun x => D x - D a - t * (2 * (x - a))) (P := fun x => P x - t * 2)
    (fun x => by
      have := (((hF x).sub_const (F a)).sub (((hasDerivAt_id x).sub_const a).const_mul (D a))).sub
        ((((hasDerivAt_id x).sub_const a).pow 2).const_mul t)
      exact this.congr_deriv (by simp))
    (fun x => by
      have := ((hD x).sub_const (D a)).sub ((((hasDerivAt_id x).sub_const a).const_mul 2).const_mul t)
      exact this.congr_deriv (by simp)) a c h (by simp) (by simp) (by
        rw [htv]
        field_simp
        ring)
  exact ⟨x, h1, h2, by linarith⟩

include hF hD in
theorem chi0_mean_lt (a b c : ℝ) (h1 : a < b) (h2 : b < c) : ∃ x, a ≤ x ∧ x ≤ c ∧ chi0 F D P a b c = P x / 2 := by
  set t := chi0 F D P a b c with ht
  have htv := chi0_ne F D P a b c h2.ne (h1.trans h2).ne' h1.ne
  rw [← ht] at htv
  have h3 := sub_ne_zero.2 h1.ne
  have h4 := sub_ne_zero.2 h2.ne
  have h5 := sub_ne_zero.2 (h1.trans h2).ne'
  have h6 := sub_ne_zero.2 h1.ne'
  obtain ⟨x, hx1, hx2, hx3⟩ := rolle3
    (F := fun x => F x - F a - (F b - F a) / (b - a) * (x - a) - t * ((x - a) * (x - b)))
    (D := fun x => D x - (F b - F a) / (b - a) - t * ((x - a) + (x - b))) (P := fun x => P x - t * 2)
    (fun x => by
      have := (((hF x).sub_const (F a)).sub (((hasDerivAt_id x).sub_const a).const_mul ((F b - F a) / (b - a)))).sub
        ((((hasDerivAt_id x).sub_const a).mul ((hasDerivAt_id x).sub_const b)).const_mul t)
      exact this.congr_deriv (by simp; left; ring))
    (fun x => by
      have := ((hD x).sub_const ((F b - F a) / (b - a))).sub
        ((((hasDerivAt_id x).sub_const a).add ((hasDerivAt_id x).sub_const b)).const_mul t)
      exact this.congr_deriv (by norm_num)) a b c h1 h2 (by simp) (by
        field_simp
        ring) (by
        rw [htv]
        field_simp
        ring)
  exact ⟨x, hx1, hx2, by linarith⟩

include hF hD in
theorem chi0_mean (a b c : ℝ) : ∃ x, min a (min b c) ≤ x ∧ x ≤ max a (max b c) ∧ chi0 F D P a b c = P x / 2 := by
  have key : ∀ a b c : ℝ, a ≤ b → b ≤ c → ∃ x, a ≤ x ∧ x ≤ c ∧ chi0 F D P a b c = P x / 2 := by
    intro a b c h1 h2
    rcases h1.lt_or_eq with h1 | rfl
    · rcases h2.lt_or_eq with h2 | rfl
      · exact chi0_mean_lt hF hD a b c h1 h2
      · obtain ⟨x, hx1, hx2, hx3⟩ := chi0_mean_ab hF hD b a h1.ne'
        rw [chi0_swap', chi0_swap] at hx3
        rw [min_eq_right h1.le] at hx1
        rw [max_eq_left h1.le] at hx2
        exact ⟨x, hx1, hx2, hx3⟩
    · rcases h2.lt_or_eq with h2 | rfl
      · obtain ⟨x, hx1, hx2, hx3⟩ := chi0_mean_ab hF hD a c h2.ne
        rw [min_eq_left h2.le] at hx1
        rw [max_eq_right h2.le] at hx2
        exact ⟨x, hx1, hx2, hx3⟩
      · exact ⟨a, le_rfl, le_rfl, chi0_eq F D P a⟩
  rcases le_total a b with h1 | h1 <;> rcases le_total b c with h2 | h2 <;> rcases le_total a c with h3 | h3
  · obtain ⟨x, k1, k2, k3⟩ := key a b c h1 h2
    exact ⟨x, (min_le_left _ _).trans k1, k2.trans (by simp), k3⟩
  · obtain ⟨x, k1, k2, k3⟩ := key a b c h1 h2
    exact ⟨x, (min_le_left _ _).trans k1, k2.trans (by simp), k3⟩
  · obtain ⟨x, k1, k2, k3⟩ := key a c b h3 h2
    rw [chi0_swap'] at k3
    exact ⟨x, (min_le_left _ _).trans k1, k2.trans (by simp), k3⟩
  · obtain ⟨x, k1, k2, k3⟩ := key c a b h3 h1
    rw [chi0_swap, chi0_swap'] at k3
    exact ⟨x, le_trans (by simp) k1, k2.trans (by simp), k3⟩
  · obtain ⟨x, k1, k2, k3⟩ := key b a c h1 h3
    rw [chi0_swap] at k3
    exact ⟨x, le_trans (by simp) k1, k2.trans (by simp), k3⟩
  · obtain ⟨x, k1, k2, k3⟩ := key b c a h2 h3
    rw [chi0_swap', chi0_swap] at k3
    exact ⟨x, le_trans (by simp) k1, k2.trans (by simp), k3⟩
  · obtain ⟨x, k1, k2, k3⟩ := key c b a h2 h1
    rw [chi0_swap, chi0_swap', chi0_swap] at k3
    exact ⟨x, le_trans (by simp) k1, k2.trans (by simp), k3⟩
  · obtain ⟨x, k1, k2, k3⟩ := key c b a h2 h1
    rw [chi0_swap, chi0_swap', chi0_swap] at k3
    exact ⟨x, le_trans (by simp) k1, k2.trans (by simp), k3⟩

include hF hD in
theorem chi0_continuous (hP : Continuous P) : Continuous fun x : ℝ × ℝ × ℝ => chi0 F D P x.1 x.2.1 x.2.2 := by
  have hQ := continuous_dslope hF hD
  have key : Continuous (fun x : ℝ × ℝ × ℝ => dslope F x.1 x.2.1 - dslope F x.2.1 x.2.2) :=
    (hQ.comp (continuous_fst.prodMk (continuous_fst.comp continuous_snd))).sub
      (hQ.comp ((continuous_fst.comp continuous_snd).prodMk (continuous_snd.comp continuous_snd)))
  have hac : ∀ a b c : ℝ, a ≠ c → ContinuousAt (fun x : ℝ × ℝ × ℝ => chi0 F D P x.1 x.2.1 x.2.2) (a, b, c) := by
    intro a b c h
    have h0 : ContinuousAt (fun x : ℝ × ℝ × ℝ => (dslope F x.1 x.2.1 - dslope F x.2.1 x.2.2) / (x.1 - x.2.2))
        (a, b, c) :=
      key.continuousAt.div (continuous_fst.sub (continuous_snd.comp continuous_snd)).continuousAt (sub_ne_zero.2 h)
    refine h0.congr ?_
    have : {x : ℝ × ℝ × ℝ | x.1 ≠ x.2.2} ∈ 𝓝 (a, b, c) :=
      (isOpen_ne_fun continuous_fst (continuous_snd.comp continuous_snd)).mem_nhds h
    filter_upwards [this] with x hx
    exact (chi0_quot hF _ _ _ hx).symm
  rw [continuous_iff_continuousAt]
  rintro ⟨a, b, c⟩
  by_cases h1 : a = c
  · by_cases h2 : a = b
    · subst h1 h2
      unfold ContinuousAt
      simp only [chi0_eq]
      rw [Metric.tendsto_nhds]
      intro ε hε
      obtain ⟨δ, hδ, hball⟩ := Metric.continuousAt_iff.1 hP.continuousAt (2 * ε) (by positivity : 0 < 2 * ε)
      have : Metric.ball (a, a, a) δ ∈ 𝓝 ((a, a, a) : ℝ × ℝ × ℝ) := Metric.ball_mem_nhds _ hδ
      filter_upwards [this] with x hx
      have e1 : dist x.1 a < δ := lt_of_le_of_lt (le_max_left _ _) hx
      have e2 : dist x.2.1 a < δ := lt_of_le_of_lt ((le_max_left _ _).trans (le_max_right _ _)) hx
      have e3 : dist x.2.2 a < δ := lt_of_le_of_lt ((le_max_right _ _).trans (le_max_right _ _)) hx
      obtain ⟨y, k1, k2, k3⟩ := chi0_mean hF hD x.1 x.2.1 x.2.2
      have e4 : dist y a < δ := by
        rw [Real.dist_eq, abs_lt] at *
        constructor
        · have : a - δ < min x.1 (min x.2.1 x.2.2) :=
            lt_min (by linarith [e1.1]) (lt_min (by linarith [e2.1]) (by linarith [e3.1]))
          linarith
        · have : max x.1 (max x.2.1 x.2.2) < a + δ :=
            max_lt (by linarith [e1.2]) (max_lt (by linarith [e2.2]) (by linarith [e3.2]))
          linarith
      have := hball e4
      rw [k3, Real.dist_eq, ← sub_div, abs_div, abs_two]
      rw [Real.dist_eq] at this
      linarith
    · have h := hac a c b h2
      have hs : Continuous fun x : ℝ × ℝ × ℝ => (x.1, x.2.2, x.2.1) := by fun_prop
      have := ContinuousAt.comp (x := (a, b, c)) (f := fun x : ℝ × ℝ × ℝ => (x.1, x.2.2, x.2.1)) h hs.continuousAt
      refine this.congr (Eventually.of_forall fun x => ?_)
      exact chi0_swap' _ _ _ _ _ _
  · exact hac a b c h1

end

/-! ### C53 -/

section
variable (kT : ℝ) (occ delta deltaPrime : ℝ → ℝ) (h1 : ∀ x, HasDerivAt occ (-delta x) x)
  (h2 : ∀ x, HasDerivAt delta (deltaPrime x) x)

include h2 in
theorem delta_hasDerivAt (x : ℝ) :
    HasDerivAt (fun x => delta (x / kT) / -kT) (-(deltaPrime (x / kT) / kT ^ 2)) x := by
  have := ((h2 (x / kT)).comp x ((hasDerivAt_id x).div_const kT)).div_const (-kT)
  refine this.congr_deriv ?_
  rw [div_neg]
  ring

include h1 h2 in
/-- C53: the factor is the second divided difference of the occupations, for all coincidences of energies. -/
theorem C53_value (a b c : ℝ) :
    triangleFactor 0 kT occ delta deltaPrime a b c = divDiff2 (fun x => occ (x / kT)) a b c := by
  rw [triangleFactor_chi0, chi0_divDiff2 (occ_hasDerivAt kT occ delta h1) (delta_hasDerivAt kT delta deltaPrime h2)]

/-- C53: symmetric under exchange of energies (these two exchanges generate all permutations). -/
theorem C53_symmetric (a b c : ℝ) :
    triangleFactor 0 kT occ delta deltaPrime b a c = triangleFactor 0 kT occ delta deltaPrime a b c ∧
    triangleFactor 0 kT occ delta deltaPrime a c b = triangleFactor 0 kT occ delta deltaPrime a b c := by
  simp only [triangleFactor_chi0]
  exact ⟨chi0_swap _ _ _ _ _ _, chi0_swap' _ _ _ _ _ _⟩

include h1 h2 in
/-- C53: the factor is a continuous function of all three energies: the formulas for equal energies are the limits of the
general one. -/
theorem C53_continuous (hc : Continuous deltaPrime) :
    Continuous fun x : ℝ × ℝ × ℝ => triangleFactor 0 kT occ delta deltaPrime x.1 x.2.1 x.2.2 := by
  simp only [triangleFactor_chi0]
  refine chi0_continuous (occ_hasDerivAt kT occ delta h1) (delta_hasDerivAt kT delta deltaPrime h2) ?_
  exact ((hc.comp (continuous_id.div_const kT)).div_const _).neg

include h1 h2 in
/-- C53: the factor is half the second derivative at some energy between the three given ones. -/
theorem C53_mean (a b c : ℝ) : ∃ x, min a (min b c) ≤ x ∧ x ≤ max a (max b c) ∧
    triangleFactor 0 kT occ delta deltaPrime a b c = -(deltaPrime (x / kT) / kT ^ 2) / 2 := by
  rw [triangleFactor_chi0]
  exact chi0_mean (occ_hasDerivAt kT occ delta h1) (delta_hasDerivAt kT delta deltaPrime h2) a b c

variable {n1 n2 n3 nb : Nat} [NeZero n1] [NeZero n2] [NeZero n3]

include h1 h2 in
/-- C53: the documented sum is returned for points on the mesh. -/
theorem C53_sum (e : Mesh n1 n2 n3 → Fin nb → ℝ) (q Q : Fin 3 → ℝ) (j J : Mesh n1 n2 n3) (hq : OnMesh q j)
    (hQ : OnMesh Q J) (gq gQ gqQ : Mesh n1 n2 n3 → Fin nb → Fin nb → ℂ) :
    triangle 0 kT occ delta deltaPrime e q Q gq gQ gqQ = 4 / ((n1 * n2 * n3 : Nat) : ℂ) * ∑ k, ∑ a, ∑ b, ∑ c,
      (divDiff2 (fun x => occ (x / kT)) (e k a) (e (k + j) b) (e (k + J) c) : ℂ) * star (gq k b a) * gQ k c a *
        gqQ (k + J) b c := by
  unfold triangle
  simp only [slice_q _ q j _ hq, slice_q _ Q J _ hQ, C53_value kT occ delta deltaPrime h1 h2]

include h1 h2 in
/-- C53: exchange of the first two points together with Hermitian conjugation of the third coupling conjugates the
result. -/
theorem C53_conj (e : Mesh n1 n2 n3 → Fin nb → ℝ) (q Q : Fin 3 → ℝ) (j J : Mesh n1 n2 n3) (hq : OnMesh q j)
    (hQ : OnMesh Q J) (gq gQ gqQ gQq : Mesh n1 n2 n3 → Fin nb → Fin nb → ℂ)
    (hg : ∀ k b c, gQq (k + j) c b = star (gqQ (k + J) b c)) :
    triangle 0 kT occ delta deltaPrime e Q q gQ gq gQq = star (triangle 0 kT occ delta deltaPrime e q Q gq gQ gqQ) := by
  have h4 : star (4 / ((n1 * n2 * n3 : Nat) : ℂ)) = 4 / ((n1 * n2 * n3 : Nat) : ℂ) := by
    have : (4 / ((n1 * n2 * n3 : Nat) : ℂ)) = ((4 / ((n1 * n2 * n3 : Nat) : ℝ) : ℝ) : ℂ) := by push_cast; rfl
    rw [this, star_real]
  unfold triangle
  simp only [slice_q _ q j _ hq, slice_q _ Q J _ hQ]
  rw [star_mul', h4]
  congr 1
  simp only [star_sum]
  refine Finset.sum_congr rfl fun k _ => Finset.sum_congr rfl fun a _ => ?_
  rw [Finset.sum_comm]
  refine Finset.sum_congr rfl fun b _ => Finset.sum_congr rfl fun c _ => ?_
  rw [hg, star_mul', star_mul', star_mul', star_star, star_real,
    (C53_symmetric kT occ delta deltaPrime (e k a) (e (k + j) b) (e (k + J) c)).2]
  ring

end

example : triangleFactor 0 2 (fun x => x ^ 3) (fun x => -3 * x ^ 2) (fun x => -6 * x) 2 4 4 = 5 / 4 := by
  unfold triangleFactor chiTriangle
  norm_num

example (a b : ℝ) : triangleFactor 0 0.025 gauss gaussDelta gaussDeltaPrime a b b =
    divDiff2 (fun x => gauss (x / 0.025)) a b b :=
  C53_value 0.025 gauss gaussDelta gaussDeltaPrime (fun x => (C36_gauss x).1) (fun x => (C36_gauss x).2) a b b

end Verif.Diag
