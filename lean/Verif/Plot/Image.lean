import Verif.Diag.Mesh
import Verif.Interp.Props
import Mathlib.Data.List.MinMax

/-!
# Model of `elphmod/plot.py` 329-472: manipulation of images

`rectify`, `color` and `adjust_pixels` in exact arithmetic.
-/

namespace Verif.Plot

open Verif.Interp Verif.Diag

/-! ### `rectify` -/

/-- `elphmod/plot.py` 357-383 (`rectify`): pixel in row `iy` and column `ix` of an image of `ny` rows and `nx` columns. -/
noncomputable def rectifyPixel (angle : Angle) (stk : Stk ℝ) (image : Int → Int → ℝ) (Ny Nx : Nat) (nx ny : Nat)
    (lt rt lb rb : ℝ × ℝ) (iy ix : Nat) : ℝ :=
  let lt : ℝ × ℝ := (Nx * lt.1, Ny * lt.2)
  let rt : ℝ × ℝ := (Nx * rt.1, Ny * rt.2)
  let lb : ℝ × ℝ := (Nx * lb.1, Ny * lb.2)
  let rb : ℝ × ℝ := (Nx * rb.1, Ny * rb.2)
  let l : ℝ × ℝ := ((lb.1 * iy + lt.1 * (ny - iy)) / ny, (lb.2 * iy + lt.2 * (ny - iy)) / ny)
  let r : ℝ × ℝ := ((rb.1 * iy + rt.1 * (ny - iy)) / ny, (rb.2 * iy + rt.2 * (ny - iy)) / ny)
  let f : ℝ × ℝ := ((r.1 * ix + l.1 * (nx - ix)) / nx, (r.2 * ix + l.2 * (nx - ix)) / nx)
  interp2 angle stk image Ny Nx (Ny - f.2) f.1

/-- `elphmod/plot.py` 329-383 (`rectify`): shape and pixels of the new image. -/
noncomputable def rectify (angle : Angle) (stk : Stk ℝ) (image : Int → Int → ℝ) (Ny Nx : Nat) (width height : ℝ)
    (lt rt lb rb : ℝ × ℝ) : Nat × Nat × (Nat → Nat → ℝ) :=
  let nx := (roundEven (Nx * width)).toNat
  let ny := (roundEven (Ny * height)).toNat
  (ny, nx, rectifyPixel angle stk image Ny Nx nx ny lt rt lb rb)

/-- C100: selecting a rectangle whose edges coincide with boundaries between pixels crops the image. Coordinates refer to
the lower left corner, rows are counted from the top. -/
theorem C100_crop (angle : Angle) (image : Int → Int → ℝ) (Ny Nx : Nat) (hy : 0 < Ny) (hx : 0 < Nx) (y0 x0 h w : Nat)
    (hh : 0 < h) (hw : 0 < w) :
    let new := rectify angle noStk image Ny Nx (w / Nx) (h / Ny) (x0 / Nx, 1 - y0 / Ny) ((x0 + w) / Nx, 1 - y0 / Ny)
      (x0 / Nx, 1 - (y0 + h) / Ny) ((x0 + w) / Nx, 1 - (y0 + h) / Ny)
    new.1 = h ∧ new.2.1 = w ∧ ∀ iy ix, new.2.2 iy ix = image ((y0 + iy : ℤ) % Ny) ((x0 + ix : ℤ) % Nx) := by
  have hx' : (Nx : ℝ) ≠ 0 := Nat.cast_ne_zero.2 (by omega)
  have hy' : (Ny : ℝ) ≠ 0 := Nat.cast_ne_zero.2 (by omega)
  have hh' : (h : ℝ) ≠ 0 := Nat.cast_ne_zero.2 (by omega)
  have hw' : (w : ℝ) ≠ 0 := Nat.cast_ne_zero.2 (by omega)
  have e1 : roundEven (Nx * ((w : ℝ) / Nx)) = w := by
    rw [mul_div_cancel₀ _ hx']
    exact_mod_cast roundEven_int w
  have e2 : roundEven (Ny * ((h : ℝ) / Ny)) = h := by
    rw [mul_div_cancel₀ _ hy']
    exact_mod_cast roundEven_int h
  intro new
  have n1 : new.1 = h := by simp only [new, rectify, e2, Int.toNat_natCast]
  have n2 : new.2.1 = w := by simp only [new, rectify, e1, Int.toNat_natCast]
  refine ⟨n1, n2, fun iy ix => ?_⟩
  simp only [new, rectify, e1, e2, Int.toNat_natCast]
  rw [← C23_mesh_points (K := ℝ) angle image Ny Nx (y0 + iy) (x0 + ix)]
  unfold rectifyPixel
  refine congrArg₂ (interp2 angle noStk image Ny Nx) ?_ ?_
  · push_cast
    field_simp
    ring
  · push_cast
    field_simp
    ring

/-- C100: selecting the whole image changes nothing. -/
theorem C100_identity (angle : Angle) (image : Int → Int → ℝ) (Ny Nx : Nat) (hy : 0 < Ny) (hx : 0 < Nx) :
    let new := rectify angle noStk image Ny Nx 1 1 (0, 1) (1, 1) (0, 0) (1, 0)
    new.1 = Ny ∧ new.2.1 = Nx ∧ ∀ iy ix, iy < Ny → ix < Nx → new.2.2 iy ix = image iy ix := by
  have hx' : (Nx : ℝ) ≠ 0 := Nat.cast_ne_zero.2 (by omega)
  have hy' : (Ny : ℝ) ≠ 0 := Nat.cast_ne_zero.2 (by omega)
  have h := C100_crop angle image Ny Nx hy hx 0 0 Ny Nx hy hx
  simp only [Nat.cast_zero, zero_div, sub_zero, zero_add, div_self hx', div_self hy', sub_self] at h
  refine ⟨h.1, h.2.1, fun iy ix hi hj => ?_⟩
  rw [h.2.2 iy ix]
  congr 1
  · exact Int.emod_eq_of_lt (by omega) (by omega)
  · exact Int.emod_eq_of_lt (by omega) (by omega)

example := C100_identity .a60 (fun i j => (i : ℝ) + 10 * j) 5 7 (by norm_num) (by norm_num)

/-- C100: whatever the corners, no values outside the range of the original image occur. -/
theorem C100_range (angle : Angle) (image : Int → Int → ℝ) (Ny Nx : Nat) (hy : 0 < Ny) (hx : 0 < Nx) (width height : ℝ)
    (lt rt lb rb : ℝ × ℝ) (lo hi : ℝ)
    (h : ∀ i j : Int, 0 ≤ i → i < Ny → 0 ≤ j → j < Nx → lo ≤ image i j ∧ image i j ≤ hi) (iy ix : Nat) :
    lo ≤ (rectify angle noStk image Ny Nx width height lt rt lb rb).2.2 iy ix ∧
      (rectify angle noStk image Ny Nx width height lt rt lb rb).2.2 iy ix ≤ hi :=
  C24_range angle image Ny Nx lo hi (by omega) (by omega) h _ _

example := C100_range .a60 (fun i j => (i : ℝ) + 10 * j) 2 2 (by norm_num) (by norm_num) 3 4 (0, 0) (1, 0) (0, 1) (1, 1) 0 11
  (fun i j h1 h2 h3 h4 => by
    have : i ≤ 1 := by omega
    have : j ≤ 1 := by omega
    constructor
    · positivity
    · have h5 : (i : ℝ) ≤ 1 := by exact_mod_cast ‹i ≤ 1›
      have h6 : (j : ℝ) ≤ 1 := by exact_mod_cast ‹j ≤ 1›
      linarith)

/-! ### `color` -/

/-- Positions of the colors of a color map: strings stand for data values, numbers for fractions of the color scale. -/
inductive Pos
  | str (x : ℝ)
  | num (x : ℝ)

/-- `elphmod/plot.py` 408-410. -/
noncomputable def fixPos (minimum maximum : ℝ) : Pos → Pos
  | .str x => .num ((x - minimum) / (maximum - minimum))
  | .num x => .num x

/-- Position used by the color map. -/
def Pos.val : Pos → ℝ
  | .str x => x
  | .num x => x

/-- `elphmod/plot.py` 385-434 (`color`) for data in the form of a flat list: image and color map afterwards. `cmap`
stands for the color map, which depends on the positions of the colors. `minimum` and `maximum` are mandatory if there is no
data. -/
noncomputable def color {C : Type} (procs : Nat) (cmap : List ℝ → ℝ → C) (data : List ℝ) (pos : List Pos)
    (minimum maximum : Option ℝ) : Option (List C × List Pos) :=
  match minimum.or data.min?, maximum.or data.max? with
  | some lo, some hi =>
    let pos := pos.map (fixPos lo hi)
    let data := data.map fun x => min (max ((x - lo) / (hi - lo)) 0) 1
    (Verif.MPI.parMap procs (fun x => cmap (pos.map Pos.val) x) data).map fun image => (image, pos)
  | _, _ => none

/-- Colors of the data for a color map whose positions refer to the data range `lo` to `hi`. -/
noncomputable def ideal {C : Type} (cmap : List ℝ → ℝ → C) (data : List ℝ) (pos : List Pos) (lo hi : ℝ) : List C :=
  data.map fun x => cmap (pos.map fun p => match p with | .str y => (y - lo) / (hi - lo) | .num y => y)
    (min (max ((x - lo) / (hi - lo)) 0) 1)

/-- C101: colors of the data points, with any number of processes. -/
theorem C101_color {C : Type} (procs : Nat) (hp : 0 < procs) (cmap : List ℝ → ℝ → C) (data : List ℝ) (pos : List Pos)
    (lo hi : ℝ) : ∃ pos', color procs cmap data pos (some lo) (some hi) = some (ideal cmap data pos lo hi, pos') := by
  refine ⟨pos.map (fixPos lo hi), ?_⟩
  simp only [color, Option.some_or]
  rw [Verif.MPI.C02_parMap procs hp, Option.map_some]
  unfold ideal
  rw [List.map_map, List.map_map]
  congr 2
  refine List.map_congr_left fun x _ => ?_
  simp only [Function.comp_apply]
  congr 1
  refine List.map_congr_left fun p _ => ?_
  cases p <;> rfl

example := C101_color 3 (by norm_num) (fun l x => (l, x)) [1, -2, 5] [.num 0, .str 1, .num 1] (-2) 5

theorem min?_le (l : List ℝ) (lo : ℝ) (h : l.min? = some lo) : ∀ x ∈ l, lo ≤ x :=
  (List.min?_eq_some_iff.1 h).2

theorem le_max? (l : List ℝ) (hi : ℝ) (h : l.max? = some hi) : ∀ x ∈ l, x ≤ hi :=
  (List.max?_eq_some_iff.1 h).2

/-- C101: by default, the color scale covers the range of the data; nothing is clipped. -/
theorem C101_default {C : Type} (procs : Nat) (hp : 0 < procs) (cmap : List ℝ → ℝ → C) (data : List ℝ) (pos : List Pos)
    (lo hi : ℝ) (hlo : data.min? = some lo) (hhi : data.max? = some hi) (hne : lo < hi) :
    ∃ pos', color procs cmap data pos none none = some
      (data.map fun x => cmap (pos.map fun p => match p with | .str y => (y - lo) / (hi - lo) | .num y => y)
        ((x - lo) / (hi - lo)), pos') := by
  have h : color procs cmap data pos none none = color procs cmap data pos (some lo) (some hi) := by
    simp only [color, hlo, hhi, Option.none_or, Option.some_or]
  obtain ⟨pos', h'⟩ := C101_color procs hp cmap data pos lo hi
  refine ⟨pos', ?_⟩
  rw [h, h']
  congr 2
  refine List.map_congr_left fun x hx => ?_
  have h1 := min?_le data lo hlo x hx
  have h2 := le_max? data hi hhi x hx
  have hd : 0 < hi - lo := by linarith
  rw [max_eq_left (div_nonneg (by linarith) hd.le), min_eq_left ((div_le_one hd).2 (by linarith))]

example := C101_default 3 (by norm_num) (fun l x => (l, x)) [1, -2, 5] [.num 0, .str 1, .num 1] (-2) 5
  (by norm_num [List.min?]) (by norm_num [List.max?]) (by norm_num)

/-- C101: larger data values have larger positions on the color scale. -/
theorem C101_monotone (lo hi x y : ℝ) (h : lo < hi) (hxy : x ≤ y) :
    min (max ((x - lo) / (hi - lo)) 0) 1 ≤ min (max ((y - lo) / (hi - lo)) 0) 1 ∧
      0 ≤ min (max ((x - lo) / (hi - lo)) 0) 1 ∧ min (max ((x - lo) / (hi - lo)) 0) 1 ≤ 1 := by
  refine ⟨min_le_min_right _ (max_le_max_right _ ?_), le_min (le_max_right _ _) zero_le_one, min_le_right _ _⟩
  gcongr

example := C101_monotone (-2) 5 1 3 (by norm_num) (by norm_num)

/-- C101: a color map can be used again for the same range of data or without strings. -/
theorem C101_again_partial {C : Type} (procs : Nat) (hp : 0 < procs) (cmap : List ℝ → ℝ → C) (data data' : List ℝ)
    (pos pos' : List Pos) (lo hi lo' hi' : ℝ) (image : List C)
    (h : color procs cmap data pos (some lo) (some hi) = some (image, pos'))
    (hs : (lo = lo' ∧ hi = hi') ∨ ∀ p ∈ pos, ∃ x, p = .num x) :
    ∃ pos'', color procs cmap data' pos' (some lo') (some hi') = some (ideal cmap data' pos lo' hi', pos'') := by
  have hpos : pos' = pos.map (fixPos lo hi) := by
    simp only [color, Option.some_or] at h
    rw [Verif.MPI.C02_parMap procs hp, Option.map_some, Option.some.injEq, Prod.mk.injEq] at h
    exact h.2.symm
  obtain ⟨pos'', h'⟩ := C101_color procs hp cmap data' pos' lo' hi'
  refine ⟨pos'', ?_⟩
  rw [h', hpos]
  congr 2
  unfold ideal
  refine List.map_congr_left fun x _ => ?_
  congr 1
  rw [List.map_map]
  refine List.map_congr_left fun p hp' => ?_
  cases p with
  | num y => rfl
  | str y =>
    rcases hs with ⟨rfl, rfl⟩ | hs
    · rfl
    · obtain ⟨x, hx⟩ := hs _ hp'
      cases hx

example : ∃ image pos', color 3 (fun l x => (l, x)) [1, -2, 5] [.num 0, .str 1, .num 1] (some (-2)) (some 5) = some (image, pos') ∧
    ∃ pos'', color 3 (fun l x => (l, x)) [7] pos' (some (-2)) (some 5) =
      some (ideal (fun l x => (l, x)) [7] [.num 0, .str 1, .num 1] (-2) 5, pos'') := by
  obtain ⟨pos', h⟩ := C101_color 3 (by norm_num) (fun l x => (l, x)) [1, -2, 5] [.num 0, .str 1, .num 1] (-2) 5
  exact ⟨_, pos', h, C101_again_partial 3 (by norm_num) _ _ _ _ _ _ _ _ _ _ h (Or.inl ⟨rfl, rfl⟩)⟩

/-- C101 is violated for a color map with a color at a given data value (here: zero) used for two sets of data: for the
second one, the color is still where the data value was for the first one. -/
theorem C101_violated :
    ∃ (data data' : List ℝ) (pos pos' : List Pos) (image : List (List ℝ × ℝ)),
      color 1 (fun p x => (p, x)) data pos (some (-1)) (some 1) = some (image, pos') ∧
      ¬∃ pos'', color 1 (fun p x => (p, x)) data' pos' (some (-1)) (some 3) =
        some (ideal (fun p x => (p, x)) data' pos (-1) 3, pos'') := by
  refine ⟨[0], [0], [.str 0], [.num (1 / 2)], [([1 / 2], 1 / 2)], ?_, ?_⟩
  · simp only [color, Option.some_or]
    rw [Verif.MPI.C02_parMap 1 one_pos]
    norm_num [fixPos, Pos.val]
  · rintro ⟨pos'', h⟩
    simp only [color, Option.some_or] at h
    rw [Verif.MPI.C02_parMap 1 one_pos] at h
    norm_num [fixPos, Pos.val, ideal] at h

/-! ### `adjust_pixels` -/

variable {V : Type} [AddCommGroup V] [Module ℝ V]

/-- `elphmod/plot.py` 457-459: new positions of the given columns. -/
noncomputable def newPoints (distances : List ℝ) (width : Nat) : List Nat :=
  let d := distances.map fun x => x - distances.headD 0
  d.map fun x => (roundEven (x / d.getLastD 0 * ((width : ℝ) - 1))).toNat

/-- `elphmod/plot.py` 466-470: columns `p` and `p'` of the old image (of `H` rows) become the columns `a` and `b` of the new
image (of `S` rows). `none`: exception (only one new row or column, so that `resize` divides by zero; the case of
decreasing column numbers is not modelled). Elements of the new image not written yet have the value `none`. -/
noncomputable def adjustLoop (procs : Nat) (image : Int → Int → V) (H S : Nat) :
    List (Nat × Nat) → Nat × Nat → (Nat → Nat → Option V) → Option (Nat → Nat → Option V)
  | [], _, new => some new
  | (b, p') :: l, (a, p), new =>
    if b ≤ a ∨ S ≤ 1 then none
    else (resize2 (K := ℝ) procs .a90 noStk false (fun i j => image i (p + j)) H (p' - p + 1) S (b - a + 1)).bind fun block =>
      adjustLoop procs image H S l (b, p') fun i j => if a ≤ j ∧ j ≤ b then block[i * (b - a + 1) + (j - a)]? else new i j

/-- `elphmod/plot.py` 436-472 (`adjust_pixels`). -/
noncomputable def adjustPixels (procs : Nat) (image : Int → Int → V) (H : Nat) (points : List Nat) (distances : List ℝ)
    (width : Nat) (height : Option Nat) : Option (Nat → Nat → Option V) :=
  match (newPoints distances width).zip points with
  | [] => none
  | x :: l => adjustLoop procs image H (height.getD H) l x fun _ _ => none

/-! ### Proofs -/

/-- Interpolation within a range of columns. -/
theorem interp_slice (image : Int → Int → V) (H W p M : Nat) (hM : 0 < M) (hW : p + M ≤ W) (y t : ℝ) (h0 : 0 ≤ t)
    (h1 : t ≤ (M : ℝ) - 1) :
    interp2 .a90 noStk (fun i j => image i (p + j)) H M y t = interp2 .a90 noStk image H W y (p + t) := by
  have hy := Int.floor_add_fract y
  have u0 := Int.fract_nonneg y
  have u1 := (Int.fract_lt_one y).le
  have ht := Int.floor_add_fract t
  have v0 := Int.fract_nonneg t
  have v1 := (Int.fract_lt_one t).le
  set j := ⌊t⌋ with hj
  have hj0 : 0 ≤ j := Int.floor_nonneg.2 h0
  have hj1 : (j : ℝ) ≤ (M : ℝ) - 1 := le_trans (Int.floor_le t) h1
  have hj2 : j ≤ (M : ℤ) - 1 := by exact_mod_cast hj1
  have a1 := cell90 (K := ℝ) (fun i j => image i (p + j)) H M ⌊y⌋ j (Int.fract y) (Int.fract t) u0 u1 v0 v1
  have a2 := cell90 (K := ℝ) image H W ⌊y⌋ (p + j) (Int.fract y) (Int.fract t) u0 u1 v0 v1
  rw [hy, ht] at a1
  push_cast at a2
  rw [hy, add_assoc, ht] at a2
  change interp90 noStk (fun i j => image i (p + j)) H M y t = interp90 noStk image H W y (p + t)
  rw [a1, a2]
  unfold ext
  have m1 : j % (M : ℤ) = j := Int.emod_eq_of_lt hj0 (by omega)
  have m2 : ((p : ℤ) + j) % (W : ℤ) = p + j := Int.emod_eq_of_lt (by omega) (by omega)
  rw [m1, m2]
  rcases eq_or_lt_of_le hj2 with h | h
  · have hz : Int.fract t = 0 := by
      have : (j : ℝ) = (M : ℝ) - 1 := by rw [h]; push_cast; ring
      linarith
    rw [hz]
    simp
  · have m3 : (j + 1) % (M : ℤ) = j + 1 := Int.emod_eq_of_lt (by omega) (by omega)
    have m4 : ((p : ℤ) + j + 1) % (W : ℤ) = p + j + 1 := Int.emod_eq_of_lt (by omega) (by omega)
    rw [add_assoc] at m4
    simp only [m3, m4, add_assoc]

/-- Value of the new image between two of the given columns. -/
noncomputable def stretched (image : Int → Int → V) (H W S : Nat) (i : Nat) (a p b p' j : Nat) : V :=
  interp2 (K := ℝ) .a90 noStk image H W (i * scale false H S) (p + ((j : ℝ) - a) * ((p' - p) / ((b : ℝ) - a)))

theorem adjustLoop_spec (procs : Nat) (hp : 0 < procs) (image : Int → Int → V) (H W S : Nat) (hS : 1 < S)
    (l : List (Nat × Nat)) (x : Nat × Nat) (new : Nat → Nat → Option V)
    (hl : List.IsChain (fun s t : Nat × Nat => s.1 < t.1 ∧ s.2 ≤ t.2) (x :: l)) (hW : ∀ s ∈ x :: l, s.2 < W) :
    ∃ new', adjustLoop procs image H S l x new = some new' ∧
      (∀ i j, j < x.1 → new' i j = new i j) ∧
      (l ≠ [] → ∀ i, i < S → new' i x.1 = some (interp2 (K := ℝ) .a90 noStk image H W (i * scale false H S) x.2)) ∧
      ∀ n a p b p', (x :: l)[n]? = some (a, p) → (x :: l)[n + 1]? = some (b, p') → ∀ i j, i < S → a ≤ j → j ≤ b →
        new' i j = some (stretched image H W S i a p b p' j) := by
  induction l generalizing x new with
  | nil => exact ⟨new, rfl, fun _ _ _ => rfl, fun h => absurd rfl h, by
      intro n a p b p' h1 h2
      simp at h2⟩
  | cons y l ih =>
    obtain ⟨a, p⟩ := x
    obtain ⟨b, p'⟩ := y
    obtain ⟨hab, hpp⟩ : a < b ∧ p ≤ p' := hl.rel_head
    have hpW : p < W := hW (a, p) (by simp)
    have hpW' : p' < W := hW (b, p') (by simp)
    obtain ⟨block, g1, g2, g3⟩ := C25_resize (K := ℝ) procs hp .a90 noStk false (fun i j => image i (p + j)) H (p' - p + 1) S
      (b - a + 1)
    have hba : (0 : ℝ) < (b : ℝ) - a := by
      have : (a : ℝ) < b := by exact_mod_cast hab
      linarith
    have hsc : scale (K := ℝ) false (p' - p + 1) (b - a + 1) = ((p' : ℝ) - p) / ((b : ℝ) - a) := by
      unfold scale
      simp only [Bool.false_eq_true, if_false]
      push_cast [Nat.cast_sub hpp, Nat.cast_sub hab.le]
      congr 1 <;> ring
    have hblock : ∀ i j, i < S → a ≤ j → j ≤ b → block[i * (b - a + 1) + (j - a)]? =
        some (stretched image H W S i a p b p' j) := by
      intro i j hi h1 h2
      rw [g3 i (j - a) hi (by omega), hsc]
      congr 1
      have hja : ((j - a : ℕ) : ℝ) = (j : ℝ) - a := by rw [Nat.cast_sub h1]
      rw [hja]
      have h1' : (0 : ℝ) ≤ (j : ℝ) - a := by
        have : (a : ℝ) ≤ j := by exact_mod_cast h1
        linarith
      have h2' : (j : ℝ) - a ≤ (b : ℝ) - a := by
        have : (j : ℝ) ≤ b := by exact_mod_cast h2
        linarith
      have hp0 : (0 : ℝ) ≤ (p' : ℝ) - p := by
        have : (p : ℝ) ≤ p' := by exact_mod_cast hpp
        linarith
      refine interp_slice image H W p (p' - p + 1) (by omega) (by omega) _ _ (by positivity) ?_
      push_cast [Nat.cast_sub hpp]
      rw [mul_div_assoc', div_le_iff₀ hba]
      nlinarith
    obtain ⟨new', f1, f2, f3, f4⟩ := ih (b, p') (fun i j => if a ≤ j ∧ j ≤ b then block[i * (b - a + 1) + (j - a)]? else new i j)
      hl.tail (fun s hs => hW s (List.mem_cons_of_mem _ hs))
    have hend : ∀ i, stretched image H W S i a p b p' b = interp2 (K := ℝ) .a90 noStk image H W (i * scale false H S) p' := by
      intro i
      unfold stretched
      congr 1
      field_simp
      ring
    have hstart : ∀ i, stretched image H W S i a p b p' a = interp2 (K := ℝ) .a90 noStk image H W (i * scale false H S) p := by
      intro i
      unfold stretched
      congr 1
      ring
    have hfirst : ∀ i j, i < S → a ≤ j → j ≤ b → new' i j = some (stretched image H W S i a p b p' j) := by
      intro i j hi h1 h2
      rcases eq_or_lt_of_le h2 with rfl | h3
      · by_cases hn : l = []
        · subst hn
          have : new' = fun i k => if a ≤ k ∧ k ≤ j then block[i * (j - a + 1) + (k - a)]? else new i k := by
            simpa [adjustLoop] using f1.symm
          rw [this]
          simp only [h1, le_refl, and_self, if_true]
          exact hblock i j hi h1 le_rfl
        · rw [f3 hn i hi, hend]
      · rw [f2 i j h3]
        simp only [h1, h3.le, and_self, if_true]
        exact hblock i j hi h1 h2
    refine ⟨new', ?_, ?_, ?_, ?_⟩
    · unfold adjustLoop
      rw [if_neg (by omega), g1, Option.bind_some]
      exact f1
    · intro i j hj
      simp only at hj
      rw [f2 i j (by simp only; omega), if_neg (by omega)]
    · intro _ i hi
      simp only
      rw [hfirst i a hi le_rfl hab.le, hstart]
    · intro n c q d q' h1 h2 i j hi hc hd
      cases n with
      | zero =>
        simp only [List.getElem?_cons_zero, Option.some.injEq, Prod.mk.injEq, zero_add, List.getElem?_cons_succ] at h1 h2
        obtain ⟨rfl, rfl⟩ := h1
        obtain ⟨rfl, rfl⟩ := h2
        exact hfirst i j hi hc hd
      | succ n => exact f4 n c q d q' (by simpa using h1) (by simpa using h2) i j hi hc hd

theorem roundEven_lt (x y : ℝ) (h : x + 1 < y) : roundEven x < roundEven y := by
  have h1 := abs_le.1 (roundEven_near x)
  have h2 := abs_le.1 (roundEven_near y)
  have : (roundEven x : ℝ) < roundEven y := by linarith
  exact_mod_cast this

theorem roundEven_nonneg (x : ℝ) (h : 0 ≤ x) : 0 ≤ roundEven x := by
  by_contra hn
  push Not at hn
  have h1 := abs_le.1 (roundEven_near x)
  have : (roundEven x : ℝ) ≤ -1 := by exact_mod_cast (by omega : roundEven x ≤ -1)
  linarith

theorem headD_eq (l : List ℝ) (h : 0 < l.length) : l.headD 0 = l[0] := by
  cases l with
  | nil => simp at h
  | cons a l => rfl

theorem getLastD_map (l : List ℝ) (h : 0 < l.length) (c : ℝ) : (l.map fun x => x - c).getLastD 0 = l[l.length - 1] - c := by
  rw [List.getLastD_eq_getLast?, List.getLast?_map, List.getLast?_eq_getElem?, List.getElem?_eq_getElem (by omega)]
  rfl

theorem newPoints_get (distances : List ℝ) (width n : Nat) (h : n < distances.length) :
    (newPoints distances width)[n]? = some (roundEven ((distances[n] - distances[0]) /
      (distances[distances.length - 1] - distances[0]) * ((width : ℝ) - 1))).toNat := by
  unfold newPoints
  simp only [headD_eq distances (by omega), getLastD_map distances (by omega)]
  rw [List.getElem?_map, List.getElem?_map, List.getElem?_eq_getElem h]
  rfl

theorem newPoints_length (distances : List ℝ) (width : Nat) : (newPoints distances width).length = distances.length := by
  simp [newPoints]

/-- C102: the whole image is filled, from the first to the last given column; between neighbouring given columns, the old
image is stretched evenly; the given columns are found at the requested distances, up to rounding. This requires that
neighbouring columns are more than one pixel apart (and more than one row). -/
theorem C102_adjust_partial (procs : Nat) (hp : 0 < procs) (image : Int → Int → V) (H W : Nat) (points : List Nat)
    (distances : List ℝ) (width : Nat) (height : Option Nat) (hS : 1 < height.getD H)
    (hl : points.length = distances.length) (h2 : 1 < distances.length) (hW : ∀ p ∈ points, p < W)
    (hpts : ∀ n (h : n + 1 < points.length), points[n] ≤ points[n + 1])
    (hlast : distances[0] < distances[distances.length - 1])
    (hd : ∀ n (h : n + 1 < distances.length), distances[distances.length - 1] - distances[0] <
      (distances[n + 1] - distances[n]) * ((width : ℝ) - 1)) :
    ∃ new, adjustPixels procs image H points distances width height = some new ∧
      ∀ n (h : n + 1 < distances.length), ∃ a b : Nat,
        |((distances[n] - distances[0]) / (distances[distances.length - 1] - distances[0]) * ((width : ℝ) - 1)) - a| ≤ 1 / 2 ∧
        |((distances[n + 1] - distances[0]) / (distances[distances.length - 1] - distances[0]) * ((width : ℝ) - 1)) - b| ≤
          1 / 2 ∧
        (n = 0 → a = 0) ∧ (n + 2 = distances.length → b + 1 = width) ∧ a < b ∧
        ∀ i j, i < height.getD H → a ≤ j → j ≤ b → new i j = some (interp2 (K := ℝ) .a90 noStk image H W
          (i * scale false H (height.getD H))
          (points[n] + ((j : ℝ) - a) * (((points[n + 1] : ℝ) - points[n]) / ((b : ℝ) - a)))) := by
  set D := distances[distances.length - 1] - distances[0] with hD
  have hD0 : 0 < D := by linarith
  set f : Nat → ℝ := fun n => (distances.getD n 0 - distances[0]) / D * ((width : ℝ) - 1) with hf
  have fget : ∀ n (h : n < distances.length), f n = (distances[n] - distances[0]) / D * ((width : ℝ) - 1) := by
    intro n h
    simp only [hf]
    rw [List.getD_eq_getElem?_getD, List.getElem?_eq_getElem h, Option.getD_some]
  have hstep : ∀ n (h : n + 1 < distances.length), f n + 1 < f (n + 1) := by
    intro n h
    rw [fget n (by omega), fget (n + 1) h]
    have := hd n h
    have e : (distances[n + 1] - distances[0]) / D * ((width : ℝ) - 1) - (distances[n] - distances[0]) / D * ((width : ℝ) - 1) =
        (distances[n + 1] - distances[n]) * ((width : ℝ) - 1) / D := by ring
    have : 1 < (distances[n + 1] - distances[n]) * ((width : ℝ) - 1) / D := by
      rw [lt_div_iff₀ hD0]
      linarith
    linarith
  have f0 : f 0 = 0 := by
    rw [fget 0 (by omega)]
    simp
  have hw : 1 < (width : ℝ) := by
    have h1 : 0 < f (distances.length - 1) := by
      have : ∀ n, n < distances.length → (n : ℝ) ≤ f n := by
        intro n
        induction n with
        | zero => intro _; rw [f0]; simp
        | succ n ih =>
          intro h
          have := ih (by omega)
          have := hstep n h
          push_cast
          linarith
      have h3 := this (distances.length - 1) (by omega)
      have : (0 : ℝ) < ((distances.length - 1 : ℕ) : ℝ) := by
        exact_mod_cast (by omega : 0 < distances.length - 1)
      linarith
    rw [fget _ (by omega), ← hD, div_self hD0.ne', one_mul] at h1
    linarith
  have hwn : 1 < width := by exact_mod_cast hw
  have fl : f (distances.length - 1) = ((width - 1 : ℕ) : ℤ) := by
    rw [fget _ (by omega), ← hD, div_self hD0.ne', one_mul]
    push_cast [Nat.cast_sub hwn.le]
    ring
  have fnn : ∀ n, n < distances.length → 0 ≤ f n := by
    intro n
    induction n with
    | zero => intro _; rw [f0]
    | succ n ih =>
      intro h
      have := ih (by omega)
      have := hstep n h
      linarith
  set r : Nat → Nat := fun n => (roundEven (f n)).toNat with hr
  have rc : ∀ n, n < distances.length → ((r n : ℕ) : ℝ) = roundEven (f n) := by
    intro n h
    simp only [hr]
    rw [← Int.cast_natCast, Int.toNat_of_nonneg (roundEven_nonneg _ (fnn n h))]
  have rlt : ∀ n, n + 1 < distances.length → r n < r (n + 1) := by
    intro n h
    have h1 := roundEven_lt _ _ (hstep n h)
    have h3 := roundEven_nonneg _ (fnn n (by omega))
    simp only [hr]
    omega
  have hnp : ∀ n, n < distances.length → (newPoints distances width)[n]? = some (r n) := by
    intro n h
    rw [newPoints_get distances width n h, ← hD, ← fget n h]
  have hz : ∀ n (h : n < distances.length), ((newPoints distances width).zip points)[n]? = some (r n, points[n]'(by omega)) := by
    intro n h
    rw [List.getElem?_zip_eq_some]
    exact ⟨hnp n h, List.getElem?_eq_getElem (by omega)⟩
  have hzl : ((newPoints distances width).zip points).length = distances.length := by
    rw [List.length_zip, newPoints_length, hl, min_self]
  obtain ⟨x, l, hxl⟩ : ∃ x l, (newPoints distances width).zip points = x :: l := by
    cases hc : (newPoints distances width).zip points with
    | nil => rw [hc] at hzl; simp at hzl; omega
    | cons x l => exact ⟨x, l, rfl⟩
  obtain ⟨new, h1, -, -, h4⟩ := adjustLoop_spec procs hp image H W (height.getD H) hS l x (fun _ _ => none) (by
      rw [← hxl, List.isChain_iff_getElem]
      intro n hn
      rw [hzl] at hn
      have e1 := hz n (by omega)
      have e2 := hz (n + 1) hn
      rw [List.getElem?_eq_getElem (by omega), Option.some.injEq] at e1 e2
      rw [e1, e2]
      exact ⟨rlt n hn, hpts n (by omega)⟩) (by
      rw [← hxl]
      intro s hs
      exact hW _ (List.of_mem_zip hs).2)
  refine ⟨new, ?_, ?_⟩
  · unfold adjustPixels
    rw [hxl]
    exact h1
  · intro n hn
    refine ⟨r n, r (n + 1), ?_, ?_, ?_, ?_, rlt n hn, ?_⟩
    · rw [← fget n (by omega), rc n (by omega)]
      exact roundEven_near _
    · rw [← fget (n + 1) hn, rc (n + 1) hn]
      exact roundEven_near _
    · rintro rfl
      simp only [hr, f0]
      rw [show (0 : ℝ) = ((0 : ℤ) : ℝ) by simp, roundEven_int]
      rfl
    · intro h
      simp only [hr]
      rw [show n + 1 = distances.length - 1 by omega, fl, roundEven_int]
      simp
      omega
    · intro i j hi ha hb
      rw [← hxl] at h4
      exact h4 n _ _ _ _ (hz n (by omega)) (hz (n + 1) hn) i j hi ha hb

/-- C102: the given columns are unchanged if the height is not changed. -/
theorem C102_columns (image : Int → Int → V) (H W : Nat) (hH : 1 < H) (i p : Nat) (hi : i < H) (hp : p < W) :
    interp2 (K := ℝ) .a90 noStk image H W (i * scale false H H) p = image i p := by
  have h : scale (K := ℝ) false H H = 1 := by
    unfold scale
    have : (1 : ℝ) < H := by exact_mod_cast hH
    simp only [Bool.false_eq_true, if_false]
    exact div_self (by linarith)
  rw [h, mul_one]
  have := C23_mesh_points (K := ℝ) .a90 image H W i p
  push_cast at this
  rw [this]
  congr 1
  · exact Int.emod_eq_of_lt (by omega) (by omega)
  · exact Int.emod_eq_of_lt (by omega) (by omega)

/-- C102 is violated: if two of the given columns fall onto the same new column, there is no result. -/
theorem C102_violated (procs : Nat) (image : Int → Int → V) (H : Nat) :
    adjustPixels procs image H [0, 5, 10] [0, 1 / 100, 1] 11 none = none := by
  have h : newPoints [0, 1 / 100, 1] 11 = [0, 0, 10] := by
    have e1 : roundEven (1 / 10 : ℝ) = 0 := by
      unfold roundEven
      have hf : ⌊(1 / 10 : ℝ)⌋ = 0 := by rw [Int.floor_eq_zero_iff]; norm_num
      have : Int.fract (1 / 10 : ℝ) = 1 / 10 := by
        rw [Int.fract, hf]; simp
      rw [this, hf]
      norm_num
    have e0 : roundEven (0 : ℝ) = 0 := by exact_mod_cast roundEven_int 0
    have e2 : roundEven (10 : ℝ) = 10 := by exact_mod_cast roundEven_int 10
    norm_num [newPoints, e0, e2, List.getLastD]
    exact ⟨e1.le, rfl⟩
  unfold adjustPixels
  rw [h]
  simp [adjustLoop]

/-- Two given columns: linear interpolation between them. -/
example : ∃ new, adjustPixels 2 (fun i j => (i : ℝ) + j) 3 [0, 2] [1, 2] 5 none = some new ∧ new 1 3 = some (5 / 2) := by
  obtain ⟨new, h1, h2⟩ := C102_adjust_partial 2 (by norm_num) (fun i j => (i : ℝ) + j) 3 3 [0, 2] [1, 2] 5 none (by norm_num) rfl
    (by norm_num) (by simp) (by intro n h; simp at h; subst h; norm_num) (by norm_num) (by
      intro n h
      simp at h
      subst h
      norm_num)
  refine ⟨new, h1, ?_⟩
  obtain ⟨a, b, -, -, h3, h4, -, h5⟩ := h2 0 (by norm_num)
  have ha := h3 rfl
  have hb : b = 4 := by have := h4 rfl; omega
  subst ha hb
  rw [h5 1 3 (by norm_num) (by norm_num) (by norm_num)]
  have := cell90 (K := ℝ) (fun i j => (i : ℝ) + j) 3 3 1 1 0 (1 / 2) (by norm_num) (by norm_num) (by norm_num) (by norm_num)
  norm_num [scale, ext] at this ⊢
  exact this

example : (rectify .a60 noStk (fun i j => 10 * (i : ℝ) + j) 4 6 (2 / 6) (3 / 4) (1 / 6, 1) (3 / 6, 1) (1 / 6, 1 / 4)
    (3 / 6, 1 / 4)).2.2 2 1 = 22 := by
  have := (C100_crop .a60 (fun i j => 10 * (i : ℝ) + j) 4 6 (by norm_num) (by norm_num) 0 1 3 2 (by norm_num)
    (by norm_num)).2.2 2 1
  norm_num at this ⊢
  exact this

example : ([1, 3, 2] : List ℝ).min? = some 1 ∧ ([1, 3, 2] : List ℝ).max? = some 3 := by
  constructor
  · rw [List.min?_eq_some_iff]; norm_num
  · rw [List.max?_eq_some_iff]; norm_num

end Verif.Plot
