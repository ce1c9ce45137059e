import Mathlib.Data.Nat.Sqrt
import Mathlib.Data.Int.Basic
import Mathlib.Data.List.Forall2
import Mathlib.Tactic.Ring
import Mathlib.Tactic.Linarith

/-!
# Arrangement of images (C57)

Images are lists of rows of pixels. `np.concatenate` fails without arrays and for arrays of different size (other than
along the axis considered). Color axes (third dimension) are part of the type of the pixels.
-/

namespace Verif.Plot

variable {α : Type}

/-- Number of pixels per row; arrays without rows have no known width here (width zero). -/
def width (im : List (List α)) : Nat := match im with
  | [] => 0
  | r :: _ => r.length

/-- `np.concatenate(l, axis=1)`. -/
def hconcat (l : List (List (List α))) : Option (List (List α)) := match l with
  | [] => none
  | [im] => some im
  | im :: l => (hconcat l).bind fun s => if im.length = s.length then some (List.zipWith (· ++ ·) im s) else none

/-- `np.concatenate(l, axis=0)`. -/
def vconcat (l : List (List (List α))) : Option (List (List α)) := match l with
  | [] => none
  | [im] => some im
  | im :: l => (vconcat l).bind fun s => if width im = width s then some (im ++ s) else none

/-- The loop `while len(images) % columns: columns += 1`, `elphmod/plot.py` 208-209, with a bound on the number of rounds;
`none` for a division by zero (or more rounds). -/
def widen (n : Nat) : Nat → Int → Option Int
  | 0, _ => none
  | fuel + 1, c => if c = 0 then none else if Int.fmod n c ≠ 0 then widen n fuel (c + 1) else some c

/-- `elphmod/plot.py` 203-220 (`arrange`); `none` stands for an exception. Slices with negative indices do not occur as the
number of rows is then negative. The loop takes less than `n + |columns| + 1` rounds. -/
def arrange (images : List (List (List α))) (columns : Option Int) : Option (List (List α)) :=
  let n := images.length
  let c0 : Int := columns.getD (Nat.sqrt n : Int)
  match (if c0 < n then widen n (n + c0.natAbs + 1) c0 else some (n : Int)) with
  | none => none
  | some c =>
    if c = 0 then none
    else ((List.range (Int.fdiv n c).toNat).mapM fun row : Nat =>
      hconcat ((images.drop (c * row).toNat).take c.toNat)).bind vconcat

/-- The loop ends with the smallest divisor not less than the given number of columns. -/
theorem widen_spec (n : Nat) (hn : 0 < n) (fuel c : Nat) (h0 : 0 < c) (hc : c ≤ n) (hf : n < c + fuel) :
    ∃ d : Nat, widen n fuel c = some (d : Int) ∧ c ≤ d ∧ d ∣ n ∧ ∀ e, c ≤ e → e ∣ n → d ≤ e := by
  induction fuel generalizing c with
  | zero => omega
  | succ fuel ih =>
    unfold widen
    rw [if_neg (by omega)]
    have hmod : Int.fmod (n : Int) (c : Int) = ((n % c : Nat) : Int) := by
      rw [Int.fmod_eq_emod_of_nonneg _ (by omega)]
      rfl
    rw [hmod]
    by_cases hd : c ∣ n
    · rw [if_neg (by simp [Nat.mod_eq_zero_of_dvd hd])]
      exact ⟨c, rfl, le_rfl, hd, fun e he _ => he⟩
    · have hne : n % c ≠ 0 := fun h => hd (Nat.dvd_of_mod_eq_zero h)
      rw [if_pos (by exact_mod_cast hne)]
      have hlt : c < n := lt_of_le_of_ne hc fun h => hd (h ▸ dvd_rfl)
      obtain ⟨d, h1, h2, h3, h4⟩ := ih (c + 1) (by omega) hlt (by omega)
      refine ⟨d, by exact_mod_cast h1, by omega, h3, fun e he hen => ?_⟩
      rcases Nat.lt_or_ge c e with h | h
      · exact h4 e h hen
      · have : e = c := by omega
        exact absurd (this ▸ hen) hd

/-- Pixel of an image. -/
def pixel (im : List (List α)) (y x : Nat) : Option α := im[y]?.bind fun r => r[x]?

/-- Image of given size. -/
def Sized (h w : Nat) (im : List (List α)) : Prop := im.length = h ∧ ∀ r ∈ im, r.length = w

theorem getElem?_append_div (w : Nat) (hw : 0 < w) (r s : List α) (hr : r.length = w) (x : Nat) :
    (r ++ s)[x]? = if x < w then r[x]? else s[x - w]? := by
  subst hr
  exact List.getElem?_append

theorem hconcat_spec (h w : Nat) (hw : 0 < w) (l : List (List (List α))) (hl : l ≠ []) (hs : ∀ im ∈ l, Sized h w im) :
    ∃ s, hconcat l = some s ∧ Sized h (w * l.length) s ∧ ∀ y x, pixel s y x = l[x / w]?.bind fun im => pixel im y (x % w) := by
  induction l with
  | nil => exact absurd rfl hl
  | cons im l ih =>
    have him := hs im (List.mem_cons_self ..)
    cases l with
    | nil =>
      refine ⟨im, rfl, by simpa using him, fun y x => ?_⟩
      by_cases hx : x < w
      · simp [Nat.div_eq_of_lt hx, Nat.mod_eq_of_lt hx]
      · obtain ⟨k, hk⟩ : ∃ k, x / w = k + 1 := ⟨x / w - 1, by have := Nat.div_pos (not_lt.1 hx) hw; omega⟩
        rw [hk]
        simp only [List.getElem?_cons_succ, List.getElem?_nil, Option.bind_none]
        unfold pixel
        rcases e : im[y]? with _ | r
        · rfl
        · have := him.2 r (List.mem_of_getElem? e)
          simp only [Option.bind_some]
          exact List.getElem?_eq_none (by omega)
    | cons im' l =>
      obtain ⟨s, e1, e2, e3⟩ := ih (List.cons_ne_nil _ _) fun i hi => hs i (List.mem_cons_of_mem _ hi)
      refine ⟨List.zipWith (· ++ ·) im s, ?_, ⟨?_, ?_⟩, fun y x => ?_⟩
      · rw [hconcat, e1, Option.bind_some, if_pos (by rw [him.1, e2.1])]
        simp
      · simp [him.1, e2.1]
      · intro r hr
        obtain ⟨i, hi, rfl⟩ := List.mem_iff_getElem.1 hr
        rw [List.getElem_zipWith, List.length_append, him.2 _ (List.getElem_mem _), e2.2 _ (List.getElem_mem _),
          List.length_cons (a := im)]
        ring
      · unfold pixel at e3 ⊢
        rw [List.getElem?_zipWith]
        rcases ey : im[y]? with _ | r
        · have hy : s[y]? = none := by
            rw [List.getElem?_eq_none_iff] at ey ⊢
            rw [e2.1, ← him.1]
            exact ey
          simp only [Option.bind_none]
          have h3 := e3 y
          rw [hy] at h3
          rcases Nat.eq_zero_or_pos (x / w) with h | h
          · rw [h]
            simp [ey]
          · obtain ⟨k, hk⟩ : ∃ k, x / w = k + 1 := ⟨x / w - 1, by omega⟩
            have := h3 (w * k + x % w)
            rw [Nat.mul_add_div hw, Nat.div_eq_of_lt (Nat.mod_lt x hw), Nat.mul_add_mod, Nat.mod_mod, add_zero] at this
            rw [hk, List.getElem?_cons_succ, ← this]
            rfl
        · have hy : ∃ t, s[y]? = some t := by
            have : y < s.length := by
              rw [e2.1, ← him.1]
              exact (List.getElem?_eq_some_iff.1 ey).1
            exact ⟨_, List.getElem?_eq_getElem this⟩
          obtain ⟨t, ht⟩ := hy
          rw [ht]
          simp only [Option.bind_some]
          have hr := him.2 r (List.mem_of_getElem? ey)
          rw [getElem?_append_div w hw r t hr]
          by_cases hx : x < w
          · rw [if_pos hx, Nat.div_eq_of_lt hx, Nat.mod_eq_of_lt hx]
            simp [ey]
          · rw [if_neg hx]
            have hx := not_lt.1 hx
            have h3 := e3 y (x - w)
            rw [ht, Option.bind_some] at h3
            rw [h3, Nat.div_eq_sub_div hw hx, Nat.mod_eq_sub_mod hx, List.getElem?_cons_succ]

theorem width_sized {h w : Nat} (h0 : 0 < h) {im : List (List α)} (hs : Sized h w im) : width im = w := by
  unfold width
  cases im with
  | nil =>
    have := hs.1
    simp at this
    omega
  | cons r im => exact hs.2 r (List.mem_cons_self ..)

theorem vconcat_spec (h w : Nat) (h0 : 0 < h) (l : List (List (List α))) (hl : l ≠ []) (hs : ∀ im ∈ l, Sized h w im) :
    ∃ s, vconcat l = some s ∧ Sized (h * l.length) w s ∧ ∀ y x, pixel s y x = l[y / h]?.bind fun im => pixel im (y % h) x := by
  induction l with
  | nil => exact absurd rfl hl
  | cons im l ih =>
    have him := hs im (List.mem_cons_self ..)
    cases l with
    | nil =>
      refine ⟨im, rfl, by simpa using him, fun y x => ?_⟩
      by_cases hy : y < h
      · simp [Nat.div_eq_of_lt hy, Nat.mod_eq_of_lt hy]
      · obtain ⟨k, hk⟩ : ∃ k, y / h = k + 1 := ⟨y / h - 1, by have := Nat.div_pos (not_lt.1 hy) h0; omega⟩
        rw [hk]
        simp only [List.getElem?_cons_succ, List.getElem?_nil, Option.bind_none]
        unfold pixel
        rw [List.getElem?_eq_none (by rw [him.1]; omega)]
        rfl
    | cons im' l =>
      obtain ⟨s, e1, e2, e3⟩ := ih (List.cons_ne_nil _ _) fun i hi => hs i (List.mem_cons_of_mem _ hi)
      have hlen : 0 < h * (im' :: l).length := by
        rw [List.length_cons]
        positivity
      refine ⟨im ++ s, ?_, ⟨?_, ?_⟩, fun y x => ?_⟩
      · rw [vconcat, e1, Option.bind_some, if_pos (by rw [width_sized h0 him, width_sized hlen e2])]
        simp
      · rw [List.length_append, him.1, e2.1, List.length_cons (a := im)]
        ring
      · intro r hr
        rcases List.mem_append.1 hr with hr | hr
        · exact him.2 r hr
        · exact e2.2 r hr
      · have e3 := e3 (y - h) x
        unfold pixel at e3 ⊢
        rw [getElem?_append_div h h0 im s him.1]
        by_cases hy : y < h
        · rw [if_pos hy, Nat.div_eq_of_lt hy, Nat.mod_eq_of_lt hy]
          simp
        · rw [if_neg hy]
          have hy := not_lt.1 hy
          rw [e3, Nat.div_eq_sub_div h0 hy, Nat.mod_eq_sub_mod hy, List.getElem?_cons_succ]

theorem mapM_some {β γ : Type} (l : List β) (f : β → Option γ) (P : β → γ → Prop) (h : ∀ b ∈ l, ∃ c, f b = some c ∧ P b c) :
    ∃ s, l.mapM f = some s ∧ List.Forall₂ P l s := by
  induction l with
  | nil => exact ⟨[], rfl, List.Forall₂.nil⟩
  | cons b l ih =>
    obtain ⟨c, h1, h2⟩ := h b (List.mem_cons_self ..)
    obtain ⟨s, h3, h4⟩ := ih fun b hb => h b (List.mem_cons_of_mem _ hb)
    exact ⟨c :: s, by simp [List.mapM_cons, h1, h3], List.Forall₂.cons h2 h4⟩

/-- C57: `arrange` terminates and puts all images of the same size, in order, line by line and without gaps into a
complete grid. The number of columns is the smallest divisor of the number of images which is not less than requested (not
less than the square root of the number of images by default), or else the number of images. -/
theorem C57_arrange (h w : Nat) (h0 : 0 < h) (hw : 0 < w) (images : List (List (List α))) (hne : images ≠ [])
    (hs : ∀ im ∈ images, Sized h w im) (columns : Option Int) (hc : ∀ c ∈ columns, 0 < c) :
    ∃ rows cols s, arrange images columns = some s ∧ rows * cols = images.length ∧
      (∀ c ∈ columns, c ≤ cols ∨ cols = images.length) ∧ (columns = none → images.length ≤ (cols + 1) ^ 2) ∧
      (∀ d : Nat, d ∣ images.length → columns.getD (Nat.sqrt images.length : Int) ≤ (d : Int) → cols ≤ d) ∧
      Sized (h * rows) (w * cols) s ∧
      ∀ y x, y < h * rows → x < w * cols → ∃ im, images[y / h * cols + x / w]? = some im ∧
        pixel s y x = pixel im (y % h) (x % w) := by
  have hn : 0 < images.length := List.length_pos_iff.2 hne
  set n := images.length with hnd
  obtain ⟨c0, hc0, hpos⟩ : ∃ c0 : Nat, columns.getD (Nat.sqrt n : Int) = (c0 : Int) ∧ 0 < c0 := by
    cases columns with
    | none => exact ⟨Nat.sqrt n, rfl, Nat.sqrt_pos.2 hn⟩
    | some c =>
      have := hc c rfl
      exact ⟨c.toNat, by simp only [Option.getD_some]; omega, by omega⟩
  obtain ⟨d, hd1, hd2, hd3, hd4⟩ : ∃ d : Nat,
      (if (c0 : Int) < n then widen n (n + (c0 : Int).natAbs + 1) c0 else some (n : Int)) = some (d : Int) ∧
      (c0 ≤ d ∨ d = n) ∧ d ∣ n ∧ ∀ e, e ∣ n → c0 ≤ e → d ≤ e := by
    split
    · next h =>
      obtain ⟨d, h1, h2, h3, h4⟩ := widen_spec n hn (n + (c0 : Int).natAbs + 1) c0 hpos (by omega) (by omega)
      exact ⟨d, h1, Or.inl h2, h3, fun e he h => h4 e h he⟩
    · next h => exact ⟨n, rfl, Or.inr rfl, dvd_rfl, fun e he h' => by
        have := Nat.le_of_dvd hn he
        omega⟩
  obtain ⟨r, hr⟩ := hd3
  have hdpos : 0 < d := Nat.pos_of_ne_zero fun h => by simp [h] at hr; omega
  have hrpos : 0 < r := Nat.pos_of_ne_zero fun h => by simp [h] at hr; omega
  have hfd : (Int.fdiv (n : Int) (d : Int)).toNat = r := by
    rw [Int.fdiv_eq_ediv_of_nonneg _ (by omega), hr]
    push_cast
    rw [Int.mul_ediv_cancel_left _ (by omega)]
    rfl
  have hslice : ∀ row ∈ List.range r, ∃ s, hconcat ((images.drop ((d : Int) * row).toNat).take (d : Int).toNat) = some s ∧
      (Sized h (w * d) s ∧ ∀ y x, x < w * d → pixel s y x =
        images[row * d + x / w]?.bind fun im => pixel im y (x % w)) := by
    intro row hrow
    have hrow := List.mem_range.1 hrow
    have hle : d * row + d ≤ n := by
      calc d * row + d = d * (row + 1) := by ring
        _ ≤ d * r := Nat.mul_le_mul_left _ hrow
        _ = n := hr.symm
    have e : ((d : Int) * row).toNat = d * row := by
      rw [← Nat.cast_mul]
      rfl
    rw [e, Int.toNat_natCast]
    have hlen : ((images.drop (d * row)).take d).length = d := by
      rw [List.length_take, List.length_drop]
      omega
    obtain ⟨s, s1, s2, s3⟩ := hconcat_spec h w hw ((images.drop (d * row)).take d)
      (List.ne_nil_of_length_pos (by omega)) fun im him => hs im (List.mem_of_mem_drop (List.mem_of_mem_take him))
    rw [hlen] at s2
    refine ⟨s, s1, s2, fun y x hx => ?_⟩
    rw [s3, List.getElem?_take_of_lt (Nat.div_lt_of_lt_mul hx), List.getElem?_drop, Nat.mul_comm]
  obtain ⟨S, hS1, hS2⟩ := mapM_some _ _ _ hslice
  have hSlen : S.length = r := by rw [← hS2.length_eq, List.length_range]
  have hSget : ∀ i (hi : i < r), ∃ s, S[i]? = some s ∧ Sized h (w * d) s ∧ ∀ y x, x < w * d → pixel s y x =
      images[i * d + x / w]?.bind fun im => pixel im y (x % w) := by
    intro i hi
    have h1 : i < (List.range r).length := by rwa [List.length_range]
    have := List.forall₂_iff_get.1 hS2
    have h2 := this.2 i h1 (by rw [hSlen]; exact hi)
    simp only [List.get_eq_getElem, List.getElem_range] at h2
    exact ⟨_, List.getElem?_eq_getElem (by rw [hSlen]; exact hi), h2⟩
  obtain ⟨s, s1, s2, s3⟩ := vconcat_spec h (w * d) h0 S (List.ne_nil_of_length_pos (by omega)) (by
    intro im him
    obtain ⟨i, hi, rfl⟩ := List.mem_iff_getElem.1 him
    rw [hSlen] at hi
    obtain ⟨s, e1, e2, -⟩ := hSget i hi
    rw [List.getElem?_eq_getElem (by rw [hSlen]; exact hi), Option.some.injEq] at e1
    rw [e1]
    exact e2)
  refine ⟨r, d, s, ?_, by rw [hr, Nat.mul_comm], ?_, ?_, ?_, by rwa [hSlen] at s2, ?_⟩
  · unfold arrange
    simp only [← hnd]
    rw [hc0, hd1]
    simp only
    rw [if_neg (by omega), hfd, hS1]
    exact s1
  · intro c hcm
    cases columns with
    | none => cases hcm
    | some c' =>
      have hcm : c' = c := by simpa using hcm
      simp only [Option.getD_some] at hc0
      rcases hd2 with h | h
      · left
        omega
      · exact Or.inr h
  · intro hcn
    subst hcn
    simp only [Option.getD_none, Nat.cast_inj] at hc0
    rcases hd2 with h | h
    · have h2 := Nat.lt_succ_sqrt' n
      calc n ≤ (Nat.sqrt n + 1) ^ 2 := h2.le
        _ ≤ (d + 1) ^ 2 := Nat.pow_le_pow_left (by omega) 2
    · rw [h]
      nlinarith
  · intro e he hle
    exact hd4 e he (by omega)
  · intro y x hy hx
    have hyr : y / h < r := Nat.div_lt_of_lt_mul hy
    obtain ⟨t, t1, t2, t3⟩ := hSget (y / h) hyr
    have hlt : y / h * d + x / w < n := by
      have h1 : x / w < d := Nat.div_lt_of_lt_mul hx
      calc y / h * d + x / w < y / h * d + d := by omega
        _ = d * (y / h + 1) := by ring
        _ ≤ d * r := Nat.mul_le_mul_left _ hyr
        _ = n := hr.symm
    refine ⟨images[y / h * d + x / w], List.getElem?_eq_getElem hlt, ?_⟩
    rw [s3, t1, Option.bind_some, t3 _ _ hx, List.getElem?_eq_getElem hlt, Option.bind_some]

/-- C57: without images, there is an exception. -/
theorem C57_empty (columns : Option Int) : arrange ([] : List (List (List α))) columns = none := by
  unfold arrange
  cases columns with
  | none => rfl
  | some c =>
    simp only [List.length_nil, Nat.cast_zero, zero_add]
    split
    · rfl
    · next c' hc =>
      split at hc
      · next h0 =>
        split
        · rfl
        · simp [Int.zero_fdiv, vconcat]
      · next h =>
        simp only [Option.some.injEq] at hc
        simp [← hc]

/-- Six images with requested number of columns four are arranged in one row. -/
example : arrange ((List.range 6).map fun i => [[i, 10 + i]]) (some 4) =
    some [[0, 10, 1, 11, 2, 12, 3, 13, 4, 14, 5, 15]] := by decide
example : arrange ((List.range 6).map fun i => [[i, 10 + i]]) none =
    some [[0, 10, 1, 11], [2, 12, 3, 13], [4, 14, 5, 15]] := by decide +kernel

end Verif.Plot
