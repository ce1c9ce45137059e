import Verif.Interp.Model
import Verif.MPI.Props
import Mathlib.Tactic.Ring
import Mathlib.Tactic.Linarith
import Mathlib.Tactic.FieldSimp
import Mathlib.Tactic.Module
import Mathlib.Tactic.NormNum

/-! Helper lemmas for `Verif.Interp`. -/

namespace Verif.Interp

variable {K : Type} [Field K] [LinearOrder K] [IsStrictOrderedRing K] [FloorRing K]
variable {V : Type} [AddCommGroup V] [Module K V]

/-- Data continued periodically. -/
def ext (data : Int → Int → V) (N M : Int) (i j : Int) : V := data (i % N) (j % M)

/-- Data continued periodically, one axis. -/
def ext1 (data : Int → V) (N : Int) (i : Int) : V := data (i % N)

theorem split_add {i : Int} {u : K} (h0 : 0 ≤ u) (h1 : u < 1) (N : Int) :
    split ((i : K) + u) N = (i % N, u) := by
  have hf : ⌊(i : K) + u⌋ = i := by
    rw [Int.floor_intCast_add, Int.floor_eq_zero_iff.2 ⟨h0, h1⟩, add_zero]
  unfold split
  rw [Int.fract, hf]
  simp

theorem split_add_one (i : Int) (N : Int) :
    split ((i : K) + 1) N = ((i + 1) % N, (0 : K)) := by
  have := split_add (K := K) (i := i + 1) (u := 0) le_rfl one_pos N
  push_cast at this
  simpa using this

theorem mod_add_one (i N : Int) : (i % N + 1) % N = (i + 1) % N := by
  simp [Int.add_emod]

/-- One axis, closed cell. -/
theorem cell1 (data : Int → V) (N : Int) (i : Int) (u : K) (h0 : 0 ≤ u) (h1 : u ≤ 1) :
    interp1 noStk data N ((i : K) + u) = (1 - u) • ext1 data N i + u • ext1 data N (i + 1) := by
  rcases lt_or_eq_of_le h1 with h | h
  · simp only [interp1, split_add h0 h, noStk, ext1, mod_add_one]
    simp
  · subst h
    simp only [interp1, split_add_one, noStk, ext1, mod_add_one]
    simp

/-- 60 degrees, closed cell. -/
theorem cell60 (data : Int → Int → V) (N M : Int) (i j : Int) (u v : K) (hu0 : 0 ≤ u) (hu1 : u ≤ 1)
    (hv0 : 0 ≤ v) (hv1 : v ≤ 1) :
    (u + v ≤ 1 → interp60 noStk data N M ((i : K) + u) ((j : K) + v) =
      u • ext data N M (i + 1) j + v • ext data N M i (j + 1) +
        (1 - u - v) • ext data N M i j) ∧
    (1 ≤ u + v → interp60 noStk data N M ((i : K) + u) ((j : K) + v) =
      (1 - v) • ext data N M (i + 1) j + (1 - u) • ext data N M i (j + 1) +
        (u + v - 1) • ext data N M (i + 1) (j + 1)) := by
  rcases lt_or_eq_of_le hu1 with hu | hu <;> rcases lt_or_eq_of_le hv1 with hv | hv
  · simp only [interp60, split_add hu0 hu, split_add hv0 hv, noStk, ext, mod_add_one]
    constructor
    · intro h
      rw [if_neg (not_lt.2 h)]; simp
    · intro h
      split
      · simp
      · next h' =>
        have e : u + v = 1 := le_antisymm (not_lt.1 h') h
        have e2 : v = 1 - u := by linarith
        subst e2
        simp
  · subst hv
    simp only [interp60, split_add hu0 hu, split_add_one, noStk, ext, mod_add_one, add_zero]
    rw [if_neg (not_lt.2 hu1)]
    constructor
    · intro h
      have e : u = 0 := by linarith
      subst e
      simp
    · intro h
      simp
      module
  · subst hu
    simp only [interp60, split_add hv0 hv, split_add_one, noStk, ext, mod_add_one, zero_add]
    rw [if_neg (not_lt.2 hv1)]
    constructor
    · intro h
      have e : v = 0 := by linarith
      subst e
      simp
    · intro h
      simp
      module
  · subst hu hv
    simp only [interp60, split_add_one, noStk, ext, mod_add_one, zero_add]
    rw [if_neg (by norm_num)]
    constructor
    · intro h; exfalso; linarith
    · intro h; simp

/-- 90 degrees, closed cell. -/
theorem cell90 (data : Int → Int → V) (N M : Int) (i j : Int) (u v : K) (hu0 : 0 ≤ u) (hu1 : u ≤ 1)
    (hv0 : 0 ≤ v) (hv1 : v ≤ 1) :
    interp90 noStk data N M ((i : K) + u) ((j : K) + v) =
      ((1 - u) * (1 - v)) • ext data N M i j + (u * (1 - v)) • ext data N M (i + 1) j +
        (u * v) • ext data N M (i + 1) (j + 1) + ((1 - u) * v) • ext data N M i (j + 1) := by
  rcases lt_or_eq_of_le hu1 with hu | hu <;> rcases lt_or_eq_of_le hv1 with hv | hv
  · simp only [interp90, split_add hu0 hu, split_add hv0 hv, noStk, ext, mod_add_one]
    simp
  · subst hv
    simp only [interp90, split_add hu0 hu, split_add_one, noStk, ext, mod_add_one]
    simp
    module
  · subst hu
    simp only [interp90, split_add hv0 hv, split_add_one, noStk, ext, mod_add_one]
    simp
  · subst hu hv
    simp only [interp90, split_add_one, noStk, ext, mod_add_one]
    simp

/-- 120 degrees, closed cell. -/
theorem cell120 (data : Int → Int → V) (N M : Int) (i j : Int) (u v : K) (hu0 : 0 ≤ u)
    (hu1 : u ≤ 1) (hv0 : 0 ≤ v) (hv1 : v ≤ 1) :
    (v ≤ u → interp120 noStk data N M ((i : K) + u) ((j : K) + v) =
      (1 - u) • ext data N M i j + v • ext data N M (i + 1) (j + 1) +
        (u - v) • ext data N M (i + 1) j) ∧
    (u ≤ v → interp120 noStk data N M ((i : K) + u) ((j : K) + v) =
      (1 - v) • ext data N M i j + u • ext data N M (i + 1) (j + 1) +
        (v - u) • ext data N M i (j + 1)) := by
  rcases lt_or_eq_of_le hu1 with hu | hu <;> rcases lt_or_eq_of_le hv1 with hv | hv
  · simp only [interp120, split_add hu0 hu, split_add hv0 hv, noStk, ext, mod_add_one]
    constructor
    · intro h
      split
      · simp
      · next h' =>
        have e : v = u := le_antisymm h (not_lt.1 h')
        subst e
        simp
    · intro h
      rw [if_neg (not_lt.2 h)]; simp
  · subst hv
    simp only [interp120, split_add hu0 hu, split_add_one, noStk, ext, mod_add_one]
    constructor
    · intro h; exfalso; linarith
    · intro h
      split
      · simp; module
      · next h' =>
        have e : u = 0 := le_antisymm (not_lt.1 h') hu0
        subst e
        simp
  · subst hu
    simp only [interp120, split_add hv0 hv, split_add_one, noStk, ext, mod_add_one]
    constructor
    · intro h
      rw [if_neg (not_lt.2 hv0)]
      simp
      module
    · intro h; exfalso; linarith
  · subst hu hv
    simp only [interp120, split_add_one, noStk, ext, mod_add_one]
    rw [if_neg (lt_irrefl _)]
    simp

/-- Every coordinate is in a cell. -/
theorem exists_cell (x : K) : ∃ (i : Int) (u : K), 0 ≤ u ∧ u < 1 ∧ x = i + u :=
  ⟨⌊x⌋, Int.fract x, Int.fract_nonneg x, Int.fract_lt_one x, (Int.floor_add_fract x).symm⟩

theorem split_add_period (n : K) (N k : Int) : split (n + (N * k : Int)) N = split n N := by
  unfold split
  rw [Int.floor_add_intCast, Int.fract_add_intCast]
  simp

end Verif.Interp
