import Verif.Plot.Plane

/-!
# Model of `elphmod/plot.py` 181-201: color bar

Exact arithmetic. Pixels are `none` if they are not a number (NaN). The limits are numbers of NumPy, so that the ratio of zero and
zero is NaN.
-/

namespace Verif.Plot

open Verif.Diag

/-- Image with missing pixels. -/
abbrev Img := Nat → Nat → Option ℝ

/-- Index of Python: negative numbers are counted from the end. -/
def pyIndex (H : Nat) (y : ℤ) : Option Nat :=
  if 0 ≤ y then if y < H then some y.toNat else none else if -(H : ℤ) ≤ y then some (y + H).toNat else none

/-- Bound of a slice of Python. -/
def pyBound (W : Nat) (x : ℤ) : Nat := if x < 0 then (x + W).toNat else min x.toNat W

/-- All numbers in the image. -/
def numbers (H W : Nat) (image : Img) : List ℝ :=
  (List.range H).flatMap fun y => (List.range W).filterMap fun x => image y x

/-- `np.nanmin`. -/
noncomputable def nanmin (l : List ℝ) : Option ℝ := l.foldl (fun m x => some (match m with | none => x | some m => min m x)) none

/-- `np.nanmax`. -/
noncomputable def nanmax (l : List ℝ) : Option ℝ := l.foldl (fun m x => some (match m with | none => x | some m => max m x)) none

/-- `image[y, x1:x2 + 1] = v`. -/
def setRow (a b : Nat) (v : Option ℝ) (r : Nat) (image : Img) : Img :=
  fun y x => if y = r ∧ a ≤ x ∧ x < b then v else image y x

/-- `elphmod/plot.py` 199-201: value in the row `y`. -/
noncomputable def barValue (lo hi : Option ℝ) (y1 y2 y : ℤ) : Option ℝ :=
  match lo, hi with
  | some lo, some hi => if y1 = y2 then none else some ((lo * ((y2 : ℝ) - y) - hi * ((y1 : ℝ) - y)) / ((y2 : ℝ) - y1))
  | _, _ => none

/-- `elphmod/plot.py` 181-201 (`colorbar`) for an image of `H` rows and `W` columns; none for an IndexError. -/
noncomputable def colorbar (H W : Nat) (image : Img) (left bottom width height : ℝ) (minimum maximum : Option ℝ) : Option Img :=
  let x1 := roundEven (W * left)
  let x2 := roundEven (W * (left + width))
  let y1 := roundEven (H * (1 - bottom))
  let y2 := roundEven (H * (1 - bottom - height))
  let lo := if minimum = none then nanmin (numbers H W image) else minimum
  let hi := if maximum = none then nanmax (numbers H W image) else maximum
  (Verif.Voronoi.irange (min y1 y2) (max y1 y2 + 1)).foldlM (fun im y =>
    (pyIndex H y).map fun r => setRow (pyBound W x1) (pyBound W (x2 + 1)) (barValue lo hi y1 y2 y) r im) image

/-! ### Specification -/

/-- Numbers shown in an image. -/
def Values (H W : Nat) (image : Img) : Set ℝ := {v | ∃ y x, y < H ∧ x < W ∧ image y x = some v}

/-! ### Proofs -/

theorem mem_numbers (H W : Nat) (image : Img) (v : ℝ) : v ∈ numbers H W image ↔ v ∈ Values H W image := by
  unfold numbers Values
  simp only [List.mem_flatMap, List.mem_range, List.mem_filterMap, Set.mem_setOf_eq]
  constructor
  · rintro ⟨y, hy, x, hx, h⟩
    exact ⟨y, x, hy, hx, h⟩
  · rintro ⟨y, x, hy, hx, h⟩
    exact ⟨y, hy, x, hx, h⟩

theorem nanmin_fold (l : List ℝ) (a : ℝ) : ∃ m, l.foldl (fun m x => some (match m with | none => x | some m => min m x)) (some a) = some m ∧
    m ∈ a :: l ∧ ∀ b ∈ a :: l, m ≤ b := by
  induction l generalizing a with
  | nil => exact ⟨a, rfl, by simp, by simp⟩
  | cons c l ih =>
    obtain ⟨m, h1, h2, h3⟩ := ih (min a c)
    refine ⟨m, h1, ?_, ?_⟩
    · rcases List.mem_cons.1 h2 with h | h
      · rcases min_choice a c with e | e <;> rw [h, e] <;> simp
      · simp [h]
    · intro b hb
      have h0 := h3 _ List.mem_cons_self
      simp only [List.mem_cons] at hb
      rcases hb with rfl | rfl | hb
      · exact h0.trans (min_le_left _ _)
      · exact h0.trans (min_le_right _ _)
      · exact h3 b (List.mem_cons_of_mem _ hb)

theorem nanmax_fold (l : List ℝ) (a : ℝ) : ∃ m, l.foldl (fun m x => some (match m with | none => x | some m => max m x)) (some a) = some m ∧
    m ∈ a :: l ∧ ∀ b ∈ a :: l, b ≤ m := by
  induction l generalizing a with
  | nil => exact ⟨a, rfl, by simp, by simp⟩
  | cons c l ih =>
    obtain ⟨m, h1, h2, h3⟩ := ih (max a c)
    refine ⟨m, h1, ?_, ?_⟩
    · rcases List.mem_cons.1 h2 with h | h
      · rcases max_choice a c with e | e <;> rw [h, e] <;> simp
      · simp [h]
    · intro b hb
      have h0 := h3 _ List.mem_cons_self
      simp only [List.mem_cons] at hb
      rcases hb with rfl | rfl | hb
      · exact (le_max_left _ _).trans h0
      · exact (le_max_right _ _).trans h0
      · exact h3 b (List.mem_cons_of_mem _ hb)

theorem nanmin_least {H W : Nat} {image : Img} (h : (Values H W image).Nonempty) :
    ∃ m, nanmin (numbers H W image) = some m ∧ IsLeast (Values H W image) m := by
  obtain ⟨v, hv⟩ := h
  have hv' := (mem_numbers H W image v).2 hv
  cases hl : numbers H W image with
  | nil => rw [hl] at hv'; simp at hv'
  | cons a l =>
    obtain ⟨m, h1, h2, h3⟩ := nanmin_fold l a
    refine ⟨m, h1, ?_, ?_⟩
    · rw [← mem_numbers, hl]; exact h2
    · intro b hb
      rw [← mem_numbers, hl] at hb
      exact h3 b hb

theorem nanmax_greatest {H W : Nat} {image : Img} (h : (Values H W image).Nonempty) :
    ∃ m, nanmax (numbers H W image) = some m ∧ IsGreatest (Values H W image) m := by
  obtain ⟨v, hv⟩ := h
  have hv' := (mem_numbers H W image v).2 hv
  cases hl : numbers H W image with
  | nil => rw [hl] at hv'; simp at hv'
  | cons a l =>
    obtain ⟨m, h1, h2, h3⟩ := nanmax_fold l a
    refine ⟨m, h1, ?_, ?_⟩
    · rw [← mem_numbers, hl]; exact h2
    · intro b hb
      rw [← mem_numbers, hl] at hb
      exact h3 b hb

/-- All rows exist. -/
theorem bar_fold (H a b : Nat) (val : ℤ → Option ℝ) (l : List ℤ) (hl : ∀ y ∈ l, 0 ≤ y ∧ y < H) (image : Img) :
    l.foldlM (fun im y => (pyIndex H y).map fun r => setRow a b (val y) r im) image =
      some (fun (y x : Nat) => if (y : ℤ) ∈ l ∧ a ≤ x ∧ x < b then val y else image y x) := by
  induction l generalizing image with
  | nil => simp
  | cons c l ih =>
    obtain ⟨h0, h1⟩ := hl c List.mem_cons_self
    have hc : pyIndex H c = some c.toNat := by
      unfold pyIndex
      rw [if_pos h0, if_pos h1]
    rw [List.foldlM_cons, hc, Option.map_some, Option.bind_eq_bind, Option.bind_some,
      ih fun y hy => hl y (List.mem_cons_of_mem _ hy)]
    congr 1
    funext y x
    unfold setRow
    have hy : y = c.toNat ↔ (y : ℤ) = c := by omega
    simp only [List.mem_cons, hy]
    by_cases e1 : (y : ℤ) ∈ l ∧ a ≤ x ∧ x < b
    · rw [if_pos e1, if_pos ⟨Or.inr e1.1, e1.2⟩]
    · rw [if_neg e1]
      by_cases e2 : (y : ℤ) = c ∧ a ≤ x ∧ x < b
      · rw [if_pos e2, if_pos ⟨Or.inl e2.1, e2.2⟩, e2.1]
      · rw [if_neg e2, if_neg]
        rintro ⟨h | h, h2⟩
        · exact e2 ⟨h, h2⟩
        · exact e1 ⟨h, h2⟩

theorem bar_fail (H a b : Nat) (val : ℤ → Option ℝ) (l : List ℤ) (c : ℤ) (hc : c ∈ l) (h : pyIndex H c = none) (image : Img) :
    l.foldlM (fun im y => (pyIndex H y).map fun r => setRow a b (val y) r im) image = none := by
  induction l generalizing image with
  | nil => simp at hc
  | cons d l ih =>
    rw [List.foldlM_cons]
    by_cases hd : pyIndex H d = none
    · rw [hd]; rfl
    · obtain ⟨r, hr⟩ := Option.ne_none_iff_exists'.1 hd
      rw [hr, Option.map_some, Option.bind_eq_bind, Option.bind_some]
      refine ih ?_ _
      rcases List.mem_cons.1 hc with rfl | hc
      · exact absurd h hd
      · exact hc

/-- A row which is addressed by exactly one number. -/
theorem bar_single (H a b : Nat) (val : ℤ → Option ℝ) (l : List ℤ) (hl : ∀ y ∈ l, pyIndex H y ≠ none) (r : Nat) (c : ℤ)
    (hu : ∀ y ∈ l, pyIndex H y = some r → y = c) (image : Img) : ∃ new,
    l.foldlM (fun im y => (pyIndex H y).map fun r => setRow a b (val y) r im) image = some new ∧
      ∀ x, a ≤ x → x < b → new r x = if c ∈ l ∧ pyIndex H c = some r then val c else image r x := by
  induction l generalizing image with
  | nil => exact ⟨image, rfl, by simp⟩
  | cons d l ih =>
    obtain ⟨s, hs⟩ := Option.ne_none_iff_exists'.1 (hl d List.mem_cons_self)
    obtain ⟨new, h1, h2⟩ := ih (fun y hy => hl y (List.mem_cons_of_mem _ hy)) (fun y hy => hu y (List.mem_cons_of_mem _ hy))
      (setRow a b (val d) s image)
    refine ⟨new, ?_, ?_⟩
    · rw [List.foldlM_cons, hs, Option.map_some, Option.bind_eq_bind, Option.bind_some, h1]
    · intro x hx hx'
      rw [h2 x hx hx']
      by_cases e : c ∈ l ∧ pyIndex H c = some r
      · rw [if_pos e, if_pos ⟨List.mem_cons_of_mem _ e.1, e.2⟩]
      · rw [if_neg e]
        unfold setRow
        by_cases e2 : r = s
        · have hd : d = c := hu d List.mem_cons_self (by rw [hs, e2])
          rw [if_pos ⟨e2, hx, hx'⟩, if_pos ⟨by rw [hd]; simp, by rw [← hd, hs, e2]⟩, hd]
        · rw [if_neg (by tauto), if_neg]
          rintro ⟨h, h'⟩
          rcases List.mem_cons.1 h with rfl | h
          · rw [hs] at h'
            exact e2 (Option.some.inj h').symm
          · exact e ⟨h, h'⟩

theorem round_near (x : ℝ) : |(roundEven x : ℝ) - x| ≤ 1 / 2 := by
  have h1 := Int.floor_add_fract x
  have h2 := Int.fract_nonneg x
  have h3 := Int.fract_lt_one x
  unfold roundEven
  split
  · exact abs_le.2 ⟨by linarith, by linarith⟩
  · split
    · exact abs_le.2 ⟨by push_cast; linarith, by push_cast; linarith⟩
    · split
      · exact abs_le.2 ⟨by linarith, by linarith⟩
      · exact abs_le.2 ⟨by push_cast; linarith, by push_cast; linarith⟩

theorem mem_irange (lo hi y : ℤ) : y ∈ Verif.Voronoi.irange lo hi ↔ lo ≤ y ∧ y < hi := by
  unfold Verif.Voronoi.irange
  simp only [List.mem_map, List.mem_range]
  constructor
  · rintro ⟨n, hn, rfl⟩
    omega
  · rintro ⟨h1, h2⟩
    exact ⟨(y - lo).toNat, by omega, by omega⟩

theorem round_nonneg {x : ℝ} (h : 0 ≤ x) : 0 ≤ roundEven x := by
  have h1 := (abs_le.1 (round_near x)).1
  have h2 : (-1 : ℝ) < roundEven x := by linarith
  have h3 : (-1 : ℤ) < roundEven x := by exact_mod_cast h2
  omega

/-- Value in the row `y`. -/
theorem barValue_eq (lo hi : ℝ) (y1 y2 y : ℤ) (h : y2 < y1) :
    barValue (some lo) (some hi) y1 y2 y = some (lo + (hi - lo) * (((y1 : ℝ) - y) / (y1 - y2))) := by
  have h1 : ((y1 : ℝ) - y2) ≠ 0 := by
    have : (y2 : ℝ) < y1 := by exact_mod_cast h
    linarith [this]
  have h2 : ((y2 : ℝ) - y1) ≠ 0 := fun e => h1 (by linarith)
  unfold barValue
  simp only
  rw [if_neg (by omega)]
  congr 1
  rw [div_eq_iff h2]
  field_simp
  ring

/-- C160: the color bar is drawn into the given rectangle. Its values increase linearly from the lower limit in the bottom row to
the upper limit in the top row. All other pixels are left unchanged. -/
theorem C160_bar_partial (H W : Nat) (image : Img) (left bottom width height : ℝ) (minimum maximum : Option ℝ) (lo hi : ℝ)
    (hlo : minimum = some lo ∨ minimum = none ∧ IsLeast (Values H W image) lo)
    (hhi : maximum = some hi ∨ maximum = none ∧ IsGreatest (Values H W image) hi) (hl : 0 ≤ left) (hw : 0 ≤ width)
    (hb : 1 / 2 < H * bottom) (hh : 1 < H * height) (ht : bottom + height ≤ 1) :
    ∃ (x1 x2 y1 y2 : Nat) (new : Img), colorbar H W image left bottom width height minimum maximum = some new ∧
      |(x1 : ℝ) - W * left| ≤ 1 / 2 ∧ |(x2 : ℝ) - W * (left + width)| ≤ 1 / 2 ∧
      |(y1 : ℝ) - H * (1 - bottom)| ≤ 1 / 2 ∧ |(y2 : ℝ) - H * (1 - bottom - height)| ≤ 1 / 2 ∧ y2 < y1 ∧ y1 < H ∧
      ∀ y x, x < W → new y x = if y2 ≤ y ∧ y ≤ y1 ∧ x1 ≤ x ∧ x ≤ x2 then
        some (lo + (hi - lo) * (((y1 : ℝ) - y) / (y1 - y2))) else image y x := by
  have hH : (0 : ℝ) ≤ H := Nat.cast_nonneg H
  have hW : (0 : ℝ) ≤ W := Nat.cast_nonneg W
  have a1 := round_near (W * left)
  have a2 := round_near (W * (left + width))
  have a3 := round_near (H * (1 - bottom))
  have a4 := round_near (H * (1 - bottom - height))
  have b1 := round_nonneg (mul_nonneg hW hl)
  have b2 := round_nonneg (mul_nonneg hW (add_nonneg hl hw))
  have b4 := round_nonneg (mul_nonneg hH (by linarith : 0 ≤ 1 - bottom - height))
  have b34 : roundEven (H * (1 - bottom - height)) < roundEven (H * (1 - bottom)) := by
    have : (roundEven (H * (1 - bottom - height)) : ℝ) < roundEven (H * (1 - bottom)) := by
      have h1 := (abs_le.1 a4).2
      have h2 := (abs_le.1 a3).1
      linarith
    exact_mod_cast this
  have b3 : roundEven (H * (1 - bottom)) < H := by
    have : (roundEven (H * (1 - bottom)) : ℝ) < (H : ℤ) := by
      have h2 := (abs_le.1 a3).2
      push_cast
      linarith
    exact_mod_cast this
  have e1 : (if minimum = none then nanmin (numbers H W image) else minimum) = some lo := by
    rcases hlo with h | ⟨h, h'⟩
    · rw [h, if_neg (by simp)]
    · rw [if_pos h]
      obtain ⟨m, h1, h2⟩ := nanmin_least (H := H) (W := W) (image := image) ⟨lo, h'.1⟩
      rw [h1, h2.unique h']
  have e2 : (if maximum = none then nanmax (numbers H W image) else maximum) = some hi := by
    rcases hhi with h | ⟨h, h'⟩
    · rw [h, if_neg (by simp)]
    · rw [if_pos h]
      obtain ⟨m, h1, h2⟩ := nanmax_greatest (H := H) (W := W) (image := image) ⟨hi, h'.1⟩
      rw [h1, h2.unique h']
  generalize hx1 : roundEven (W * left) = x1 at *
  generalize hx2 : roundEven (W * (left + width)) = x2 at *
  generalize hy1 : roundEven (H * (1 - bottom)) = y1 at *
  generalize hy2 : roundEven (H * (1 - bottom - height)) = y2 at *
  obtain ⟨x1, rfl⟩ := Int.eq_ofNat_of_zero_le b1
  obtain ⟨x2, rfl⟩ := Int.eq_ofNat_of_zero_le b2
  obtain ⟨y1, rfl⟩ := Int.eq_ofNat_of_zero_le (b4.trans b34.le)
  obtain ⟨y2, rfl⟩ := Int.eq_ofNat_of_zero_le b4
  have hfold : colorbar H W image left bottom width height minimum maximum = some fun (y x : Nat) =>
      if (y : ℤ) ∈ Verif.Voronoi.irange y2 (y1 + 1) ∧ pyBound W x1 ≤ x ∧ x < pyBound W (x2 + 1) then
        barValue (some lo) (some hi) y1 y2 y else image y x := by
    unfold colorbar
    simp only [hx1, hx2, hy1, hy2, e1, e2]
    rw [min_eq_right (by omega), max_eq_left (by omega)]
    refine bar_fold H _ _ _ _ ?_ image
    intro y hy
    rw [mem_irange] at hy
    omega
  refine ⟨x1, x2, y1, y2, _, hfold, by exact_mod_cast a1, by exact_mod_cast a2, by exact_mod_cast a3, by exact_mod_cast a4, by omega,
    by omega, ?_⟩
  intro y x hx
  simp only [mem_irange, barValue_eq lo hi _ _ _ b34]
  refine if_congr ?_ (by push_cast; rfl) rfl
  unfold pyBound
  rw [if_neg (by omega), if_neg (by omega)]
  omega

/-- C160: with the default limits, the color bar does not change the range of values in the image. -/
theorem C160_range_partial (H W : Nat) (image : Img) (left bottom width height lo hi : ℝ) (hlo : IsLeast (Values H W image) lo)
    (hhi : IsGreatest (Values H W image) hi) (hl : 0 ≤ left) (hw : 0 ≤ width)
    (hb : 1 / 2 < H * bottom) (hh : 1 < H * height) (ht : bottom + height ≤ 1) :
    ∃ new, colorbar H W image left bottom width height none none = some new ∧
      IsLeast (Values H W new) lo ∧ IsGreatest (Values H W new) hi := by
  obtain ⟨x1, x2, y1, y2, new, h, hx1, hx2, -, -, h21, h1H, hnew⟩ := C160_bar_partial H W image left bottom width height none none lo hi
    (Or.inr ⟨rfl, hlo⟩) (Or.inr ⟨rfl, hhi⟩) hl hw hb hh ht
  refine ⟨new, h, ?_⟩
  have hr : (0 : ℝ) < y1 - y2 := by
    have : (y2 : ℝ) < y1 := by exact_mod_cast h21
    linarith
  have hlohi : lo ≤ hi := hhi.2 hlo.1
  have hbound : ∀ v ∈ Values H W new, lo ≤ v ∧ v ≤ hi := by
    rintro v ⟨y, x, hy, hx, hv⟩
    rw [hnew y x hx] at hv
    split at hv
    · next hc =>
      have hv := Option.some.inj hv
      have hy2 : (y2 : ℝ) ≤ y := by exact_mod_cast hc.1
      have hy1 : (y : ℝ) ≤ y1 := by exact_mod_cast hc.2.1
      have t0 : 0 ≤ ((y1 : ℝ) - y) / (y1 - y2) := div_nonneg (by linarith) hr.le
      have t1 : ((y1 : ℝ) - y) / (y1 - y2) ≤ 1 := (div_le_one hr).2 (by linarith)
      rw [← hv]
      constructor <;> nlinarith
    · exact ⟨hlo.2 ⟨y, x, hy, hx, hv⟩, hhi.2 ⟨y, x, hy, hx, hv⟩⟩
  have hx12 : x1 ≤ x2 ∨ W ≤ x1 ∨ ∀ y x, x < W → new y x = image y x := by
    by_cases e : x1 ≤ x2
    · exact Or.inl e
    · refine Or.inr (Or.inr fun y x hx => ?_)
      rw [hnew y x hx, if_neg (by omega)]
  have hkeep : (∀ y x, x < W → new y x = image y x) → IsLeast (Values H W new) lo ∧ IsGreatest (Values H W new) hi := by
    intro he
    have : Values H W new = Values H W image := by
      ext v
      constructor
      · rintro ⟨y, x, hy, hx, hv⟩
        exact ⟨y, x, hy, hx, by rw [← he y x hx, hv]⟩
      · rintro ⟨y, x, hy, hx, hv⟩
        exact ⟨y, x, hy, hx, by rw [he y x hx, hv]⟩
    rw [this]
    exact ⟨hlo, hhi⟩
  by_cases hW1 : x1 < W
  · rcases hx12 with h12 | h12 | h12
    · refine ⟨⟨⟨y1, x1, h1H, hW1, ?_⟩, fun v hv => (hbound v hv).1⟩, ⟨⟨y2, x1, by omega, hW1, ?_⟩, fun v hv => (hbound v hv).2⟩⟩
      · rw [hnew y1 x1 hW1, if_pos ⟨by omega, by omega, by omega, by omega⟩]
        simp
      · rw [hnew y2 x1 hW1, if_pos ⟨by omega, by omega, by omega, by omega⟩, div_self hr.ne']
        congr 1
        ring
    · omega
    · exact hkeep h12
  · exact hkeep fun y x hx => by rw [hnew y x hx, if_neg (by omega)]

/-- C160 does not hold for color bars at the lower edge: for `bottom=0`, an exception is raised for all images. -/
theorem C160_bottom_violated (H W : Nat) (image : Img) (left width height : ℝ) (hh : 0 ≤ height) (minimum maximum : Option ℝ) :
    colorbar H W image left 0 width height minimum maximum = none := by
  have h1 : roundEven ((H : ℝ) * (1 - 0)) = H := by
    rw [sub_zero, mul_one]
    exact_mod_cast roundEven_int H
  unfold colorbar
  refine bar_fail H _ _ _ _ (H : ℤ) ?_ ?_ image
  · rw [mem_irange, h1]
    have h2 := (abs_le.1 (round_near ((H : ℝ) * (1 - 0 - height)))).2
    have h3 : (0 : ℝ) ≤ H * height := mul_nonneg (Nat.cast_nonneg H) hh
    have h4 : (roundEven ((H : ℝ) * (1 - 0 - height)) : ℝ) < ((H + 1 : ℤ) : ℝ) := by
      have h6 : (H : ℝ) * (1 - 0 - height) = H - H * height := by ring
      rw [h6] at h2 ⊢
      push_cast
      linarith
    have h5 : roundEven ((H : ℝ) * (1 - 0 - height)) < H + 1 := by exact_mod_cast h4
    constructor
    · exact min_le_left _ _
    · have := le_max_left (H : ℤ) (roundEven ((H : ℝ) * (1 - 0 - height)))
      omega
  · unfold pyIndex
    rw [if_pos (by omega), if_neg (by omega)]

/-- C160 does not hold for color bars that exceed the upper edge: the part beyond the edge is drawn at the bottom of the image,
already for a single row. -/
theorem C160_top_violated (H W : Nat) (image : Img) (left bottom width height lo hi : ℝ) (hl : 0 ≤ left) (hw : 0 ≤ width)
    (hb : 3 / 2 < H * bottom) (hb1 : bottom ≤ 1) (ht : -(H : ℝ) ≤ H * (1 - bottom - height)) (ht' : H * (1 - bottom - height) < -(1 / 2))
    (x : Nat) (hx : W * left + 1 / 2 ≤ x) (hx' : x ≤ W * (left + width) - 1 / 2) (hxW : x < W) :
    ∃ (y1 y2 : ℤ) (new : Img), colorbar H W image left bottom width height (some lo) (some hi) = some new ∧ y1 < H - 1 ∧ y2 < 0 ∧
      new (H - 1) x = some (lo + (hi - lo) * (((y1 : ℝ) + 1) / (y1 - y2))) := by
  have hH : (0 : ℝ) ≤ H := Nat.cast_nonneg H
  have hW : (0 : ℝ) ≤ W := Nat.cast_nonneg W
  have hHpos : 0 < H := by
    rcases Nat.eq_zero_or_pos H with h | h
    · rw [h] at hb
      norm_num at hb
    · exact h
  have a1 := round_near (W * left)
  have a2 := round_near (W * (left + width))
  have a3 := round_near (H * (1 - bottom))
  have a4 := round_near (H * (1 - bottom - height))
  have b1 := round_nonneg (mul_nonneg hW hl)
  have b2 := round_nonneg (mul_nonneg hW (add_nonneg hl hw))
  have b3 := round_nonneg (mul_nonneg hH (by linarith : 0 ≤ 1 - bottom))
  have c1 : roundEven (W * left) ≤ x := by
    have : (roundEven (W * left) : ℝ) ≤ (x : ℤ) := by
      have := (abs_le.1 a1).2
      push_cast
      linarith
    exact_mod_cast this
  have c2 : (x : ℤ) ≤ roundEven (W * (left + width)) := by
    have : ((x : ℤ) : ℝ) ≤ roundEven (W * (left + width)) := by
      have := (abs_le.1 a2).1
      push_cast
      linarith
    exact_mod_cast this
  have c3 : roundEven (H * (1 - bottom)) < H - 1 := by
    have : (roundEven (H * (1 - bottom)) : ℝ) < ((H - 1 : ℤ) : ℝ) := by
      have h2 := (abs_le.1 a3).2
      push_cast
      linarith
    exact_mod_cast this
  have c4 : roundEven (H * (1 - bottom - height)) < 0 := by
    have : (roundEven (H * (1 - bottom - height)) : ℝ) < ((0 : ℤ) : ℝ) := by
      have h2 := (abs_le.1 a4).2
      push_cast
      linarith
    exact_mod_cast this
  have c5 : -(H : ℤ) ≤ roundEven (H * (1 - bottom - height)) := by
    have : ((-(H : ℤ) - 1 : ℤ) : ℝ) < roundEven (H * (1 - bottom - height)) := by
      have h2 := (abs_le.1 a4).1
      push_cast
      linarith
    have : -(H : ℤ) - 1 < roundEven (H * (1 - bottom - height)) := by exact_mod_cast this
    omega
  unfold colorbar
  simp only [reduceCtorEq, if_false]
  generalize roundEven (W * left) = x1 at *
  generalize roundEven (W * (left + width)) = x2 at *
  generalize roundEven (H * (1 - bottom)) = y1 at *
  generalize roundEven (H * (1 - bottom - height)) = y2 at *
  rw [min_eq_right (by omega), max_eq_left (by omega)]
  obtain ⟨new, h1, h2⟩ := bar_single H (pyBound W x1) (pyBound W (x2 + 1)) (barValue (some lo) (some hi) y1 y2)
    (Verif.Voronoi.irange y2 (y1 + 1)) (by
      intro y hy
      rw [mem_irange] at hy
      unfold pyIndex
      split
      · rw [if_pos (by omega)]; simp
      · rw [if_pos (by omega)]; simp) (H - 1) (-1) (by
      intro y hy h
      rw [mem_irange] at hy
      unfold pyIndex at h
      split at h
      · rw [if_pos (by omega)] at h
        have := Option.some.inj h
        omega
      · rw [if_pos (by omega)] at h
        have := Option.some.inj h
        omega) image
  refine ⟨y1, y2, new, h1, c3, c4, ?_⟩
  rw [h2 x (by unfold pyBound; rw [if_neg (by omega)]; omega) (by unfold pyBound; rw [if_neg (by omega)]; omega), if_pos,
    barValue_eq lo hi y1 y2 _ (by omega)]
  · congr 1
    push_cast
    ring
  · constructor
    · rw [mem_irange]; omega
    · unfold pyIndex
      rw [if_neg (by omega), if_pos (by omega)]
      congr 1
      omega

/-- C160 violated: a rectangle that exceeds the left edge is not drawn at all, not even the part inside the image. -/
theorem C160_left_violated (H W : Nat) (image : Img) (left bottom width height : ℝ) (minimum maximum : Option ℝ)
    (hl : W * left < -(1 / 2)) (hl' : -(W : ℝ) ≤ W * left) (hr : 0 ≤ left + width) (hw : W * width + 2 ≤ W)
    (hb : 1 / 2 < H * bottom) (hh : 1 < H * height) (ht : bottom + height ≤ 1) :
    ∃ new, colorbar H W image left bottom width height minimum maximum = some new ∧ ∀ y x, new y x = image y x := by
  have hH : (0 : ℝ) ≤ H := Nat.cast_nonneg H
  have hW : (0 : ℝ) ≤ W := Nat.cast_nonneg W
  have a1 := round_near (W * left)
  have a2 := round_near (W * (left + width))
  have a3 := round_near (H * (1 - bottom))
  have a4 := round_near (H * (1 - bottom - height))
  have b2 := round_nonneg (mul_nonneg hW hr)
  have b4 := round_nonneg (mul_nonneg hH (by linarith : 0 ≤ 1 - bottom - height))
  have b34 : roundEven (H * (1 - bottom - height)) < roundEven (H * (1 - bottom)) := by
    have : (roundEven (H * (1 - bottom - height)) : ℝ) < roundEven (H * (1 - bottom)) := by
      have h1 := (abs_le.1 a4).2
      have h2 := (abs_le.1 a3).1
      linarith
    exact_mod_cast this
  have b3 : roundEven (H * (1 - bottom)) < H := by
    have : (roundEven (H * (1 - bottom)) : ℝ) < (H : ℤ) := by
      have h2 := (abs_le.1 a3).2
      push_cast
      linarith
    exact_mod_cast this
  have b1 : roundEven (W * left) < 0 := by
    have : (roundEven (W * left) : ℝ) < (0 : ℤ) := by
      have h2 := (abs_le.1 a1).2
      push_cast
      linarith
    exact_mod_cast this
  have b12 : roundEven (W * (left + width)) + 1 ≤ roundEven (W * left) + W := by
    have : ((roundEven (W * (left + width)) + 1 : ℤ) : ℝ) < ((roundEven (W * left) + W + 1 : ℤ) : ℝ) := by
      have h1 := (abs_le.1 a1).1
      have h2 := (abs_le.1 a2).2
      have h3 : (W : ℝ) * (left + width) = W * left + W * width := mul_add _ _ _
      push_cast
      linarith
    have := Int.cast_lt.1 this
    omega
  unfold colorbar
  simp only
  generalize roundEven (W * left) = x1 at *
  generalize roundEven (W * (left + width)) = x2 at *
  generalize roundEven (H * (1 - bottom)) = y1 at *
  generalize roundEven (H * (1 - bottom - height)) = y2 at *
  rw [min_eq_right (by omega), max_eq_left (by omega)]
  rw [bar_fold H _ _ _ _ (by
    intro y hy
    rw [mem_irange] at hy
    omega) image]
  refine ⟨_, rfl, fun y x => ?_⟩
  beta_reduce
  refine if_neg ?_
  rintro ⟨-, h1, h2⟩
  unfold pyBound at h1 h2
  rw [if_pos b1] at h1
  rw [if_neg (by omega)] at h2
  omega

/-! ### Examples -/

example : ∃ new, colorbar 100 100 (fun y x => if y = 0 then none else some (x : ℝ)) 0.02 0.02 0.03 0.30 none none = some new ∧
    IsLeast (Values 100 100 new) 0 ∧ IsGreatest (Values 100 100 new) 99 := by
  refine C160_range_partial 100 100 _ _ _ _ _ 0 99 ⟨⟨1, 0, by norm_num, by norm_num, by simp⟩, ?_⟩
    ⟨⟨1, 99, by norm_num, by norm_num, by simp⟩, ?_⟩ (by norm_num) (by norm_num) (by norm_num) (by norm_num) (by norm_num)
  · rintro v ⟨y, x, -, -, h⟩
    beta_reduce at h
    split at h
    · simp at h
    · rw [← Option.some.inj h]
      positivity
  · rintro v ⟨y, x, -, hx, h⟩
    beta_reduce at h
    split at h
    · simp at h
    · rw [← Option.some.inj h]
      exact_mod_cast (by omega : x ≤ 99)

example : ∃ (y1 y2 : ℤ) (new : Img), colorbar 10 10 (fun _ _ => none) 0 0.5 1 1 (some 0) (some 1) = some new ∧ y1 < ((10 : Nat) : ℤ) - 1 ∧ y2 < 0 ∧
    new (10 - 1) 5 = some (0 + (1 - 0) * (((y1 : ℝ) + 1) / (y1 - y2))) :=
  C160_top_violated 10 10 _ 0 0.5 1 1 0 1 (by norm_num) (by norm_num) (by norm_num) (by norm_num) (by norm_num) (by norm_num) 5
    (by norm_num) (by norm_num) (by norm_num)

example : ∃ new, colorbar 100 100 (fun _ _ => some 1) (-0.1) 0.1 0.3 0.5 none none = some new ∧ ∀ y x, new y x = some 1 :=
  C160_left_violated 100 100 _ (-0.1) 0.1 0.3 0.5 none none (by norm_num) (by norm_num) (by norm_num) (by norm_num) (by norm_num)
    (by norm_num) (by norm_num)

end Verif.Plot
