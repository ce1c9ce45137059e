import Verif.ElPh.Model
import Verif.Phon.LongRange

/-!
# Long-range electron-phonon coupling (C88)
-/

namespace Verif.ElPh

open Verif.Lattice (V3)
open Verif.Phon

variable {n : Nat}

theorem gLr_eq (p : Polar n) (G : List (Fin 3 → ℝ)) (z : Fin n → Fin 3 → Fin 3 → ℝ)
    (qu : Option (Fin n → Fin 3 → Fin 3 → Fin 3 → ℝ)) (q : Fin 3 → ℝ) (i : Fin n × Fin 3) :
    gLr p G z qu q i = ((kList p G q).map fun K => (factor p K : ℂ) *
      (dotFactor p z qu K i.1 i.2 * expFactor p K i.1)).sum := by
  have h : generateLongRange { p with perp := false } G z qu q = (kList p G q).map fun K =>
      (factor p K, fun i : Fin n × Fin 3 => dotFactor p z qu K i.1 i.2 * expFactor p K i.1) := by
    obtain ⟨a, b, r, eps, Z, Q, M, lr2d, L, perp, dm, al⟩ := p
    rcases lr2d with _ | _ <;> rcases L with _ | l <;> exact List.append_nil _
  unfold gLr
  rw [h, List.map_map]
  rfl

/-- C88: the long-range coupling for `-q` is the complex conjugate, so that (being diagonal in the orbitals) it is that of a
real perturbation. -/
theorem C88_conj (p : Polar n) (Gmax : ℝ) (G2d : Bool) (z : Fin n → Fin 3 → Fin 3 → ℝ)
    (qu : Option (Fin n → Fin 3 → Fin 3 → Fin 3 → ℝ)) (q : Fin 3 → ℝ) (i : Fin n × Fin 3) :
    gLr p (gList p Gmax G2d) z qu (-q) i = star (gLr p (gList p Gmax G2d) z qu q i) := by
  rw [gLr_eq, gLr_eq, ((kList_neg p _ (gList_neg p Gmax G2d) q).map _).sum_eq, List.map_map, Verif.Fourier.list_star_sum,
    List.map_map]
  congr 1
  apply List.map_congr_left
  intro K _
  simp only [Function.comp]
  rw [factor_neg, dotFactor_neg, expFactor_neg]
  simp only [star_mul', star_ofReal']

/-- C88: in two dimensions, for wave vectors in the plane, displacements out of the plane do not couple to a charge at long
range if they do not induce dipoles in the plane (also if out-of-plane terms are considered for the phonons). -/
theorem C88_plane (p : Polar n) (h2 : p.lr2d = true) (hb : p.b 0 2 = 0 ∧ p.b 1 2 = 0) (Gmax : ℝ) (G2d : Bool)
    (z : Fin n → Fin 3 → Fin 3 → ℝ) (na : Fin n) (hz : z na 0 2 = 0 ∧ z na 1 2 = 0) (q : Fin 3 → ℝ) (hq : q 2 = 0) :
    gLr p (gList p Gmax G2d) z none q (na, 2) = 0 := by
  rw [gLr_eq]
  apply List.sum_eq_zero
  intro x hx
  obtain ⟨K, hK, rfl⟩ := List.mem_map.1 hx
  have hK2 : K 2 = 0 := by
    unfold kList at hK
    obtain ⟨g, hg, rfl⟩ := List.mem_map.1 (List.mem_filter.1 hK).1
    unfold gList at hg
    obtain ⟨m, hm, rfl⟩ := List.mem_map.1 hg
    have hm2 := ((mem_box _ _).1 (List.mem_filter.1 hm).1).2.2
    have hn : nr p Gmax G2d 2 = 0 := by
      unfold nr
      rw [if_pos ⟨rfl, by simp [h2]⟩]
    rw [hn] at hm2
    have hm0 : m.2.2 = 0 := by
      have := hm2.1
      have := hm2.2
      push_cast at *
      omega
    simp [gVec, hb.1, hb.2, hm0, hq]
  simp [dotFactor, Fin.sum_univ_three, hz.1, hz.2, hK2]

/-- A hexagonal two-dimensional material with out-of-plane terms. -/
noncomputable example : ∃ p : Polar 2, p.lr2d = true ∧ p.L = some 3 ∧ p.perp = true ∧ (p.b 0 2 = 0 ∧ p.b 1 2 = 0) ∧
    p.Z 0 0 2 = 0 ∧ p.Z 0 1 2 = 0 ∧ p.Z 0 2 2 = 1 :=
  ⟨{ a := fun i => if i = 0 then ![1, 0, 0] else if i = 1 then ![-1 / 2, Real.sqrt 3 / 2, 0] else ![0, 0, 20]
     b := fun i => if i = 0 then ![1, 1 / Real.sqrt 3, 0] else if i = 1 then ![0, 2 / Real.sqrt 3, 0] else ![0, 0, 1 / 20]
     r := fun _ _ => 0
     M := fun _ => 1
     divideMass := true
     eps := fun x y => if x = y then 3 else 0
     Z := fun _ x y => if x = y then 1 else 0
     Q := none
     lr2d := true
     L := some 3
     perp := true
     alpha := 1 }, by simp⟩

end Verif.ElPh
