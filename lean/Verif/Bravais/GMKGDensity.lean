import Verif.Bravais.GMKG

/-!
# C105: density of points on the path of `GMKG`
-/

namespace Verif.Bravais

open Verif.Diag (roundEven roundEven_near)

theorem toNat_near (x : ℝ) (hx : 0 ≤ x) : |((roundEven x).toNat : ℝ) - x| ≤ 1 / 2 := by
  have h := abs_le.1 (roundEven_near x)
  by_cases h0 : 0 ≤ roundEven x
  · have : ((roundEven x).toNat : ℝ) = (roundEven x : ℝ) := by
      rw [← Int.cast_natCast, Int.toNat_of_nonneg h0]
    rw [this, abs_sub_comm]
    exact roundEven_near x
  · have h1 : roundEven x ≤ -1 := by omega
    have h2 : (roundEven x : ℝ) ≤ -1 := by exact_mod_cast h1
    linarith [h.1, h.2]

/-- C105: the numbers of intervals between corner points equal `N` times the lengths of the sections of the path up to rounding, i.e., all sections
have the same density of points. This does not hold for the section from Gamma to M if the points shall be on a mesh, where its number of intervals is
`N / 2`. -/
theorem C105_density (N : Nat) (mesh a60 straight lift : Bool) (h : mesh = false ∨ N % 6 ≠ 0) :
    ∃ c1 c2 c3 : Nat, (gmkg N mesh a60 straight lift).2.2 = [0, c1, c2, c3] ∧ |(c1 : ℝ) - N * (1 / √3)| ≤ 1 / 2 ∧
      |((c2 : ℝ) - c1) - N * (1 / 3)| ≤ 1 / 2 ∧ |((c3 : ℝ) - c2) - N * (2 / 3)| ≤ 1 / 2 := by
  have hnum : gmkgNumbers N mesh = ((roundEven (N * (1 / √3))).toNat, (roundEven (N * (1 / 3))).toNat, (roundEven (N * (2 / 3))).toNat + 1) := by
    unfold gmkgNumbers
    rw [if_neg]
    rcases h with h | h <;> simp [h]
  have h0 : (0 : ℝ) ≤ N := Nat.cast_nonneg N
  refine ⟨_, _, _, by simp only [gmkg, hnum]; rfl, toNat_near _ (by positivity), ?_, ?_⟩
  · have := toNat_near (N * (1 / 3)) (by positivity)
    push_cast
    simpa using this
  · have := toNat_near (N * (2 / 3)) (by positivity)
    rw [← Nat.add_assoc, Nat.add_sub_cancel]
    push_cast
    simpa using this

/-- C105: on the mesh, the straight lines M-K and K-Gamma have the same density of points, and there are `N / 2` intervals between Gamma and M. -/
theorem C105_density_mesh (n : Nat) (a60 straight lift : Bool) :
    (gmkg (6 * n) true a60 straight lift).2.2 = [0, 3 * n, 4 * n, 6 * n] := by
  have hnum : gmkgNumbers (6 * n) true = (3 * n, n, 2 * n + 1) := by
    unfold gmkgNumbers
    rw [if_pos (by simp)]
    simp only [Prod.mk.injEq]
    omega
  simp only [gmkg, hnum]
  simp
  omega

example (a60 straight lift : Bool) := C105_density 100 true a60 straight lift (Or.inr (by norm_num))

end Verif.Bravais
