import Verif.Diag.SelfEnergy

/-!
# C52: results of `phonon_self_energy` for lists of q points
-/

namespace Verif.Diag

open Verif.Occ (gauss gaussDelta C36_gauss)

/-- C52: for any number of processes, the result of `phonon_self_energy` for the `i`-th of the given q points (on the mesh) is the sum over states
of products of couplings and difference quotients of occupations of the energies at `k` and `k + q`. -/
theorem C52_result {n1 n2 n3 nb : Nat} [NeZero n1] [NeZero n2] [NeZero n3] {X : Type} [DecidableEq X] (size : Nat) (hs : 0 < size) (kT : ℝ)
    (occ delta : ℝ → ℝ) (h : ∀ x, HasDerivAt occ (-delta x) x) (sym : Bool) (e : Mesh n1 n2 n3 → Fin nb → ℝ)
    (qs : List ((Fin 3 → ℝ) × Cpl n1 n2 n3 nb X × Option (Cpl n1 n2 n3 nb X))) :
    ∃ l, phononSelfEnergy size 0 kT occ delta none sym false (fun _ _ => 0) e qs = some l ∧
      ∀ (i : Nat) (q : Fin 3 → ℝ) (g : Cpl n1 n2 n3 nb X) (j : Mesh n1 n2 n3), qs[i]? = some (q, g, none) → OnMesh q j →
        ∃ P, l[i]? = some P ∧ ∀ mu nu, P mu nu = 2 / ((n1 * n2 * n3 : Nat) : ℂ) *
          ∑ k, ∑ m, ∑ n, star (g mu k m n) * g nu k m n * (quotient kT occ (e k n) (e (k + j) m) : ℂ) := by
  unfold phononSelfEnergy
  rw [Verif.MPI.C02_parMap size hs]
  refine ⟨_, rfl, fun i q g j hi hj => ?_⟩
  rw [List.getElem?_map, hi]
  exact ⟨_, rfl, fun mu nu => C52_value kT occ delta h sym e q j hj g mu nu⟩

/-- Three processes, two q points on a 2 x 2 mesh. -/
example : (∀ x, HasDerivAt gauss (-gaussDelta x) x) ∧
    OnMesh (fun _ => 0) ((0, 0, 0) : Mesh 2 2 1) ∧ OnMesh (fun i => if i = 0 then Real.pi else 0) ((1, 0, 0) : Mesh 2 2 1) :=
  ⟨fun x => (C36_gauss x).1, ⟨fun _ => 0, by simp, by simp, by simp⟩, ⟨fun _ => 0, by norm_num; ring, by simp, by simp⟩⟩

end Verif.Diag
