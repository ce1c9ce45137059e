import Verif.MD.Density
import Verif.Diag.SupercellProps

/-!
# Size consistency of molecular dynamics (C155)

A driver for a supercell with the same displacements in all cells yields the same results as a driver for the unit cell.
-/

namespace Verif.MD.Repeat

open Matrix
open Verif.Diag Verif.Diag.Derivatives
open Verif.Lattice (V3 Supercell detSpec)

/-! ### Sums over states -/

section
variable {M M' : Type} [AddCommGroup M] [Fintype M] [DecidableEq M] [AddCommGroup M'] [Fintype M'] [DecidableEq M'] {C nb : Nat}
  {fold : M → M'} {χ : Fin C → M → ℂ} (h : Fold fold χ) {H : M → Matrix (Fin nb) (Fin nb) ℂ}
  {HS : M' → Matrix (Fin (C * nb)) (Fin (C * nb)) ℂ}
  (hH : ∀ κ r a b, ∑ s, χ s κ * HS (fold κ) (split.symm (r, a)) (split.symm (s, b)) = χ r κ * H κ a b)
  {e : M → Fin nb → ℝ} {U : M → Matrix (Fin nb) (Fin nb) ℂ} (hU : ∀ κ, Diagonalizes (H κ) (e κ) (U κ))
  {eS : M' → Fin (C * nb) → ℝ} {US : M' → Matrix (Fin (C * nb)) (Fin (C * nb)) ℂ} (hUS : ∀ K, Diagonalizes (HS K) (eS K) (US K))

include h

theorem fold_zero : fold 0 = 0 := by
  have := h.add 0 0
  rw [add_zero] at this
  exact left_eq_add.1 this

theorem phase_zero (r : Fin C) : χ r 0 = 1 := by
  have h1 := h.mul r 0 0
  have h2 := h.unit r 0
  rw [add_zero] at h1
  have h3 : χ r 0 ≠ 0 := fun h3 => by rw [h3, mul_zero] at h2; exact zero_ne_one h2
  exact mul_left_cancel₀ h3 (by rw [← h1, mul_one])

theorem sum_phases (q : M) (hq : fold q = 0) : ∑ t, χ t q = if q = 0 then (C : ℂ) else 0 := by
  have h6 := h.orth 0 q ((fold_zero h).trans hq.symm)
  simp only [phase_zero h, star_one, one_mul] at h6
  rw [h6]
  by_cases hq0 : q = 0
  · rw [if_pos hq0, if_pos hq0.symm]
  · rw [if_neg hq0, if_neg fun h => hq0 h.symm]

include hH hU hUS

theorem sum0_any (w : ℝ → ℝ) : ∑ K, ∑ n, w (eS K n) = ∑ k, ∑ n, w (e k n) := by
  obtain ⟨φ, -⟩ := exists_fibre (fold := fold) h.card
  have hd := fold_diagonalizes h φ hU hH
  rw [← sum0_fold (e := e) h φ w]
  refine Finset.sum_congr rfl fun K _ => ?_
  have h3 := sum1_gauge (fun x => ((w x : ℝ) : ℂ)) (hd K) (hUS K) 1
  unfold sum1 mix at h3
  simp only [Matrix.mul_one, (hd K).unitary, (hUS K).unitary, Matrix.one_apply_eq, mul_one] at h3
  exact_mod_cast h3

variable {X : Type} {g G : M → X → M → Matrix (Fin nb) (Fin nb) ℂ}
  {gS GS : M' → Fin C × X → M' → Matrix (Fin (C * nb)) (Fin (C * nb)) ℂ} (hg : FoldsCoupling fold χ g gS)

include hg

theorem sum1_any (w : ℝ → ℂ) (r : Fin C) (x : X) :
    ∑ K, sum1 w (eS K) (US K) (gS 0 (r, x) K) = (∑ k, sum1 w (e k) (U k) (g 0 x k)) / C := by
  obtain ⟨φ, -⟩ := exists_fibre (fold := fold) h.card
  have hd := fold_diagonalizes h φ hU hH
  rw [← sum1_fold (e := e) (U := U) h φ w hg r x]
  exact Finset.sum_congr rfl fun K _ => sum1_gauge _ (hd K) (hUS K) _

theorem sum2_any (w : ℝ → ℝ → ℂ) (hG : FoldsCoupling fold χ G GS) (q : M) (r : Fin C) (x y : X) :
    ∑ t, χ t q * ∑ K, sum2 w (eS K) (eS (K + fold q)) (US K) (US (K + fold q)) (gS (fold q) (r, x) K)ᴴ (GS (fold q) (t, y) K) =
      χ r q / C * ∑ k, sum2 w (e k) (e (k + q)) (U k) (U (k + q)) (g q x k)ᴴ (G q y k) := by
  obtain ⟨φ, -⟩ := exists_fibre (fold := fold) h.card
  have hd := fold_diagonalizes h φ hU hH
  rw [← sum2_fold (e := e) (U := U) h φ w hg hG q r x y]
  refine Finset.sum_congr rfl fun t _ => ?_
  congr 1
  exact Finset.sum_congr rfl fun K _ => sum2_gauge w (hd K) (hUS K) (hd (K + fold q)) (hUS (K + fold q)) _ _

end

/-! ### Specification -/

variable {n1 n2 n3 m1 m2 m3 nb nat nq nQ C : Nat} [NeZero n1] [NeZero n2] [NeZero n3] [NeZero m1] [NeZero m2] [NeZero m3]

/-- Displacements of a supercell: cell and displacement of the unit cell. -/
def displ : Fin C × X nat ≃ X (C * nat) where
  toFun p := (split.symm (p.1, p.2.1), p.2.2)
  invFun i := ((split i.1).1, ((split i.1).2, i.2))
  left_inv p := by simp
  right_inv i := Prod.ext (split.symm_apply_apply i.1) rfl

theorem sum_displ {β : Type} [AddCommMonoid β] (f : X (C * nat) → β) : ∑ i, f i = ∑ r : Fin C, ∑ x : X nat, f (displ (r, x)) := by
  rw [← Equiv.sum_comp displ f, Fintype.sum_prod_type]

/-- Specification: `sup` describes the supercell of the system described by `unit`, with the same displacements in all cells. `p`, `P`: q
points on the k mesh, `g`, `gS`: electron-phonon coupling. -/
structure Repeats (fold : Mesh n1 n2 n3 → Mesh m1 m2 m3) (χ : Fin C → Mesh n1 n2 n3 → ℂ)
    (g : Mesh n1 n2 n3 → X nat → Mesh n1 n2 n3 → Matrix (Fin nb) (Fin nb) ℂ)
    (gS : Mesh m1 m2 m3 → Fin C × X nat → Mesh m1 m2 m3 → Matrix (Fin (C * nb)) (Fin (C * nb)) ℂ)
    (p : Fin (nq + 1) → Mesh n1 n2 n3) (P : Fin (nQ + 1) → Mesh m1 m2 m3)
    (unit : Driver n1 n2 n3 nb nat nq) (sup : Driver m1 m2 m3 (C * nb) (C * nat) nQ) : Prop where
  card : n1 * n2 * n3 = C * (m1 * m2 * m3)
  kT : sup.kT = unit.kT
  n : sup.n = C * unit.n
  q : ∀ iq, OnMesh (unit.q iq) (p iq)
  Q : ∀ iQ, OnMesh (sup.q iQ) (P iQ)
  q0 : ∀ iq, p iq = 0 ↔ iq = 0
  Q0 : ∀ iQ, P iQ = 0 ↔ iQ = 0
  H0 : ∀ k r a b, ∑ t, χ t k * sup.H0 (fold k) (split.symm (r, a)) (split.symm (t, b)) = χ r k * unit.H0 k a b
  C0 : ∀ iq iQ, fold (p iq) = P iQ → ∀ r x y, ∑ t, χ t (p iq) * sup.C0 iQ (displ (r, x)) (displ (t, y)) = χ r (p iq) * unit.C0 iq x y
  d0 : ∀ iq x k, unit.d0 iq x k = g (p iq) x k
  D0 : ∀ iQ i k, sup.d0 iQ (displ i) k = gS (P iQ) i k
  coupling : FoldsCoupling fold χ g gS
  F0 : ∀ r x, sup.F0 (displ (r, x)) = unit.F0 x
  u : ∀ r x, sup.u (displ (r, x)) = unit.u x

variable {fold : Mesh n1 n2 n3 → Mesh m1 m2 m3} {χ : Fin C → Mesh n1 n2 n3 → ℂ} (hf : Fold fold χ)
  {g : Mesh n1 n2 n3 → X nat → Mesh n1 n2 n3 → Matrix (Fin nb) (Fin nb) ℂ}
  {gS : Mesh m1 m2 m3 → Fin C × X nat → Mesh m1 m2 m3 → Matrix (Fin (C * nb)) (Fin (C * nb)) ℂ}
  {p : Fin (nq + 1) → Mesh n1 n2 n3} {P : Fin (nQ + 1) → Mesh m1 m2 m3}
  {unit : Driver n1 n2 n3 nb nat nq} {sup : Driver m1 m2 m3 (C * nb) (C * nat) nQ} (h : Repeats fold χ g gS p P unit sup)

include hf h

/-- C155: the Hamiltonian of the displaced supercell is the folded Hamiltonian of the displaced unit cell. -/
theorem C155_hamiltonian (k : Mesh n1 n2 n3) (r : Fin C) (a b : Fin nb) :
    ∑ t, χ t k * sup.H (fold k) (split.symm (r, a)) (split.symm (t, b)) = χ r k * unit.H k a b := by
  unfold Driver.H
  simp only [Matrix.add_apply, Matrix.sum_apply, Matrix.smul_apply, smul_eq_mul, mul_add, Finset.sum_add_distrib, h.H0]
  congr 1
  have h1 := h.coupling 0 k r
  rw [fold_zero hf] at h1
  simp only [phase_zero hf, one_mul] at h1
  have hp : p 0 = 0 := (h.q0 0).2 rfl
  have hP : P 0 = 0 := (h.Q0 0).2 rfl
  simp only [sum_displ, h.D0, h.u, h.d0, hp, hP]
  rw [Finset.mul_sum]
  have h2 : ∀ t, χ t k * ∑ i, ∑ x, ((unit.u x : ℝ) : ℂ) * gS 0 (i, x) (fold k) (split.symm (r, a)) (split.symm (t, b)) =
      ∑ x, (unit.u x : ℂ) * ∑ i, χ t k * gS 0 (i, x) (fold k) (split.symm (r, a)) (split.symm (t, b)) := by
    intro t
    rw [Finset.sum_comm, Finset.mul_sum]
    refine Finset.sum_congr rfl fun x _ => ?_
    rw [Finset.mul_sum, Finset.mul_sum]
    exact Finset.sum_congr rfl fun i _ => by ring
  rw [Finset.sum_congr rfl fun t _ => h2 t, Finset.sum_comm]
  refine Finset.sum_congr rfl fun x _ => ?_
  rw [← Finset.mul_sum, Finset.sum_comm, h1 x a b]
  ring

variable {occ : ℝ → ℝ} (h1 : Diagonalized occ unit) (h2 : Diagonalized occ sup)

omit [NeZero n1] [NeZero n2] [NeZero n3] hf h in
theorem diagonalizes {s : Driver n1 n2 n3 nb nat nq} (h1 : Diagonalized occ s) (k : Mesh n1 n2 n3) :
    Diagonalizes (s.H k) (fun n => s.e k n + s.mu) (s.U k) := ⟨h1.eig k, h1.unitary k⟩

include h1 h2

/-- Energies relative to a common zero. -/
theorem sum0_total (w : ℝ → ℝ) : ∑ K, ∑ n, w (sup.e K n + sup.mu) = ∑ k, ∑ n, w (unit.e k n + unit.mu) :=
  sum0_any hf (fun κ r a b => C155_hamiltonian hf h κ r a b) (diagonalizes h1) (diagonalizes h2) w

/-- C155: the chemical potential of the supercell is that of the unit cell (for a strictly monotonic occupation function). -/
theorem C155_level (hocc : StrictAnti occ) (hkT : 0 < unit.kT) (hnb : 0 < nb) : sup.mu = unit.mu := by
  have hC : (C : ℝ) ≠ 0 := Nat.cast_ne_zero.2 hf.pos
  have hm : ((m1 * m2 * m3 : Nat) : ℝ) ≠ 0 :=
    Nat.cast_ne_zero.2 (Nat.mul_ne_zero (Nat.mul_ne_zero (NeZero.ne m1) (NeZero.ne m2)) (NeZero.ne m3))
  have e1 := h1.number
  have e2 := h2.number
  rw [h.n, ← e1, h.kT, h.card, Nat.cast_mul C] at e2
  have e3 : ∑ K, ∑ n, occ (sup.e K n / unit.kT) = ∑ k, ∑ n, occ (unit.e k n / unit.kT) := by
    generalize ((m1 * m2 * m3 : Nat) : ℝ) = x at hm e2
    field_simp at e2
    exact e2
  have e4 := sum0_total hf h h1 h2 fun x => occ ((x - sup.mu) / unit.kT)
  simp only [add_sub_cancel_right] at e4
  rw [e3] at e4
  by_contra hne
  have key : ∀ (a b : ℝ), a < b → ∑ k : Mesh n1 n2 n3, ∑ n, occ ((unit.e k n + b) / unit.kT) < ∑ k, ∑ n, occ ((unit.e k n + a) / unit.kT) := by
    intro a b hab
    have hlt : ∀ k n, occ ((unit.e k n + b) / unit.kT) < occ ((unit.e k n + a) / unit.kT) := fun k n =>
      hocc (div_lt_div_of_pos_right (by linarith) hkT)
    haveI : Nonempty (Fin nb) := ⟨⟨0, hnb⟩⟩
    exact Finset.sum_lt_sum_of_nonempty Finset.univ_nonempty fun k _ => Finset.sum_lt_sum_of_nonempty Finset.univ_nonempty fun n _ => hlt k n
  have e5 : ∑ k, ∑ n, occ ((unit.e k n + (unit.mu - sup.mu)) / unit.kT) = ∑ k, ∑ n, occ ((unit.e k n + 0) / unit.kT) := by
    simp only [add_zero]
    rw [e4]
    exact Finset.sum_congr rfl fun k _ => Finset.sum_congr rfl fun n _ => by rw [add_sub_assoc]
  rcases lt_trichotomy (unit.mu - sup.mu) 0 with hlt | heq | hgt
  · exact absurd e5 (key _ _ hlt).ne'
  · exact hne (by linarith)
  · exact absurd e5 (key _ _ hgt).ne

omit hf h h1 h2 in
/-- Hypothesis of `C155_level`: the Fermi-Dirac function; for the other ones, see `example_driver`. -/
example : StrictAnti Verif.Occ.fermi := Verif.Occ.fermi_smoothStep.anti

variable (hmu : sup.mu = unit.mu)

include hmu

theorem sum0_rel (w : ℝ → ℝ) : ∑ K, ∑ n, w (sup.e K n) = ∑ k, ∑ n, w (unit.e k n) := by
  have e := sum0_total hf h h1 h2 fun x => w (x - unit.mu)
  rw [hmu] at e
  simpa only [add_sub_cancel_right] using e

theorem sum1_rel (w : ℝ → ℂ) (r : Fin C) (x : X nat) :
    ∑ K, sum1 w (sup.e K) (sup.U K) (sup.d0 0 (displ (r, x)) K) = (∑ k, sum1 w (unit.e k) (unit.U k) (unit.d0 0 x k)) / C := by
  have e := sum1_any hf (fun κ r a b => C155_hamiltonian hf h κ r a b) (diagonalizes h1) (diagonalizes h2) h.coupling
    (fun x => w (x - unit.mu)) r x
  rw [hmu] at e
  unfold sum1 at e ⊢
  simp only [add_sub_cancel_right] at e
  simp only [h.D0, h.d0, (h.q0 0).2 rfl, (h.Q0 0).2 rfl]
  exact e

theorem sum2_rel (w : ℝ → ℝ → ℂ) (q : Mesh n1 n2 n3) (r : Fin C) (x y : X nat) :
    ∑ t, χ t q * ∑ K, sum2 w (sup.e K) (sup.e (K + fold q)) (sup.U K) (sup.U (K + fold q)) (gS (fold q) (r, x) K)ᴴ (gS (fold q) (t, y) K) =
      χ r q / C * ∑ k, sum2 w (unit.e k) (unit.e (k + q)) (unit.U k) (unit.U (k + q)) (g q x k)ᴴ (g q y k) := by
  have e := sum2_any hf (fun κ r a b => C155_hamiltonian hf h κ r a b) (diagonalizes h1) (diagonalizes h2) h.coupling
    (fun x y => w (x - unit.mu) (y - unit.mu)) h.coupling q r x y
  rw [hmu] at e
  unfold sum2 at e ⊢
  simp only [add_sub_cancel_right] at e
  exact e

/-- C155: the free energy is extensive. -/
theorem C155_free_energy (entropy : ℝ → ℝ) : sup.freeEnergy occ entropy = C * unit.freeEnergy occ entropy := by
  have hC : (C : ℝ) ≠ 0 := Nat.cast_ne_zero.2 hf.pos
  have hm : ((m1 * m2 * m3 : Nat) : ℝ) ≠ 0 :=
    Nat.cast_ne_zero.2 (Nat.mul_ne_zero (Nat.mul_ne_zero (NeZero.ne m1) (NeZero.ne m2)) (NeZero.ne m3))
  have hp : p 0 = 0 := (h.q0 0).2 rfl
  have hP : P 0 = 0 := (h.Q0 0).2 rfl
  unfold Driver.freeEnergy
  rw [h.kT, h.n, hmu, sum0_rel hf h h1 h2 hmu fun x => occ (x / unit.kT) * x, sum0_rel hf h h1 h2 hmu fun x => entropy (x / unit.kT), h.card]
  have e1 : ∑ i, ∑ j, sup.u i * (sup.C0 0 i j).re * sup.u j = C * ∑ x, ∑ y, unit.u x * (unit.C0 0 x y).re * unit.u y := by
    simp only [sum_displ, h.u]
    have e2 : ∀ (r : Fin C) (x : X nat), ∑ t, ∑ y, unit.u x * (sup.C0 0 (displ (r, x)) (displ (t, y))).re * unit.u y =
        ∑ y, unit.u x * (unit.C0 0 x y).re * unit.u y := by
      intro r x
      rw [Finset.sum_comm]
      refine Finset.sum_congr rfl fun y _ => ?_
      rw [← Finset.sum_mul, ← Finset.mul_sum, ← Complex.re_sum]
      have e3 := h.C0 0 0 (by rw [hp, hP, fold_zero hf]) r x y
      simp only [hp, phase_zero hf, one_mul] at e3
      rw [e3]
    simp only [e2]
    rw [Finset.sum_const, Finset.card_univ, Fintype.card_fin, nsmul_eq_mul]
  have e4 : ∑ i, sup.F0 i * sup.u i = C * ∑ x, unit.F0 x * unit.u x := by
    simp only [sum_displ, h.u, h.F0]
    rw [Finset.sum_const, Finset.card_univ, Fintype.card_fin, nsmul_eq_mul]
  rw [e1, e4, Nat.cast_mul C]
  generalize ((m1 * m2 * m3 : Nat) : ℝ) = x at hm ⊢
  field_simp

/-- C155: the forces on equivalent atoms are the same. -/
theorem C155_forces (r : Fin C) (x : X nat) : sup.jacobian occ (displ (r, x)) = unit.jacobian occ x := by
  have hC : (C : ℂ) ≠ 0 := Nat.cast_ne_zero.2 hf.pos
  have hm : ((m1 * m2 * m3 : Nat) : ℂ) ≠ 0 :=
    Nat.cast_ne_zero.2 (Nat.mul_ne_zero (Nat.mul_ne_zero (NeZero.ne m1) (NeZero.ne m2)) (NeZero.ne m3))
  have hp : p 0 = 0 := (h.q0 0).2 rfl
  have hP : P 0 = 0 := (h.Q0 0).2 rfl
  unfold Driver.jacobian
  rw [h.F0, firstOrderU_eq, firstOrderU_eq, h.kT, h.card]
  congr 2
  · have e := sum1_rel hf h h1 h2 hmu (fun x => ((occ (x / unit.kT) : ℝ) : ℂ)) r x
    unfold sum1 mix at e
    rw [e, Nat.cast_mul C]
    congr 1
    generalize ((m1 * m2 * m3 : Nat) : ℂ) = x at hm ⊢
    field_simp
  · simp only [sum_displ, h.u]
    rw [Finset.sum_comm]
    refine Finset.sum_congr rfl fun y _ => ?_
    rw [← Finset.sum_mul, ← Complex.re_sum]
    have e3 := h.C0 0 0 (by rw [hp, hP, fold_zero hf]) r x y
    simp only [hp, phase_zero hf, one_mul] at e3
    rw [e3]

omit hf h h1 h2 hmu in
theorem d_coupling (s : Driver n1 n2 n3 nb nat nq) (iq : Fin (nq + 1)) (j : Mesh n1 n2 n3) (hj : OnMesh (s.q iq) j) :
    s.d iq = coupling s.U j (s.d0 iq) := by
  funext x k
  unfold Driver.d coupling mix
  rw [slice_q _ _ j _ hj]

omit hf h h1 h2 hmu in
theorem electronic_eq (eps : ℝ) (delta : ℝ → ℝ) (s : Driver n1 n2 n3 nb nat nq) (iq : Fin (nq + 1)) (j : Mesh n1 n2 n3)
    (hj : OnMesh (s.q iq) j) (h0 : OnMesh (s.q 0) (0 : Mesh n1 n2 n3)) (x y : X nat) : s.electronic eps occ delta iq x y =
      2 / ((n1 * n2 * n3 : Nat) : ℂ) * (∑ k, sum2 (fun x y => ((staticFn eps s.kT occ delta x y : ℝ) : ℂ)) (s.e k) (s.e (k + j)) (s.U k)
        (s.U (k + j)) (s.d0 iq x k)ᴴ (s.d0 iq y k)) + if iq = 0 then fermiShift s.kT delta s.e (coupling s.U 0 (s.d0 0)) x y else 0 := by
  unfold Driver.electronic
  rw [d_coupling s iq j hj, d_coupling s 0 0 h0]
  congr 1
  simp only [weights_fn _ _ _ _ _ _ _ _ hj, envelopeFn, mul_one]
  have e := selfEnergy_pairs false false (fun x y => ((staticFn eps s.kT occ delta x y : ℝ) : ℂ)) j s.e s.U (s.d0 iq) none x y
  simp only [Option.map_none, Bool.false_eq_true, false_and, if_false] at e
  exact e

/-- C155: the Hessian of the supercell is the folded Hessian of the unit cell. -/
theorem C155_hessian (eps : ℝ) (delta : ℝ → ℝ) (iq : Fin (nq + 1)) (iQ : Fin (nQ + 1)) (hq : fold (p iq) = P iQ) (r : Fin C) (x y : X nat) :
    ∑ t, χ t (p iq) * sup.hessian eps occ delta iQ (displ (r, x)) (displ (t, y)) = χ r (p iq) * unit.hessian eps occ delta iq x y := by
  have hC : (C : ℂ) ≠ 0 := Nat.cast_ne_zero.2 hf.pos
  have hm : ((m1 * m2 * m3 : Nat) : ℂ) ≠ 0 :=
    Nat.cast_ne_zero.2 (Nat.mul_ne_zero (Nat.mul_ne_zero (NeZero.ne m1) (NeZero.ne m2)) (NeZero.ne m3))
  have hp : p 0 = 0 := (h.q0 0).2 rfl
  have hP : P 0 = 0 := (h.Q0 0).2 rfl
  have o1 : OnMesh (unit.q 0) 0 := hp ▸ h.q 0
  have o2 : OnMesh (sup.q 0) 0 := hP ▸ h.Q 0
  unfold Driver.hessian
  simp only [mul_add, Finset.sum_add_distrib, h.C0 iq iQ hq r x y]
  congr 1
  rw [electronic_eq eps delta unit iq (p iq) (h.q iq) o1]
  simp only [electronic_eq eps delta sup iQ (P iQ) (h.Q iQ) o2, mul_add, Finset.sum_add_distrib]
  congr 1
  · have e := sum2_rel hf h h1 h2 hmu (fun x y => ((staticFn eps unit.kT occ delta x y : ℝ) : ℂ)) (p iq) r x y
    rw [hq] at e
    simp only [h.D0, h.d0, h.kT]
    have e' : ∀ t, χ t (p iq) * (2 / ((m1 * m2 * m3 : Nat) : ℂ) * ∑ K, sum2 (fun x y => ((staticFn eps unit.kT occ delta x y : ℝ) : ℂ)) (sup.e K)
        (sup.e (K + P iQ)) (sup.U K) (sup.U (K + P iQ)) (gS (P iQ) (r, x) K)ᴴ (gS (P iQ) (t, y) K)) = 2 / ((m1 * m2 * m3 : Nat) : ℂ) *
        (χ t (p iq) * ∑ K, sum2 (fun x y => ((staticFn eps unit.kT occ delta x y : ℝ) : ℂ)) (sup.e K)
        (sup.e (K + P iQ)) (sup.U K) (sup.U (K + P iQ)) (gS (P iQ) (r, x) K)ᴴ (gS (P iQ) (t, y) K)) := fun t => by ring
    rw [Finset.sum_congr rfl fun t _ => e' t, ← Finset.mul_sum, e, h.card, Nat.cast_mul C]
    generalize ((m1 * m2 * m3 : Nat) : ℂ) = x at hm ⊢
    field_simp
  · by_cases hQ : iQ = 0
    · have hfq : fold (p iq) = 0 := by rw [hq, hQ, hP]
      simp only [if_pos hQ]
      have e1 : ∀ (t : Fin C) (z : X nat), ∑ K, ∑ n, ((delta (sup.e K n / sup.kT) / sup.kT : ℝ) : ℂ) *
          coupling sup.U 0 (sup.d0 0) (displ (t, z)) K n n =
          (∑ k, ∑ n, ((delta (unit.e k n / unit.kT) / unit.kT : ℝ) : ℂ) * coupling unit.U 0 (unit.d0 0) z k n n) / C := by
        intro t z
        have e := sum1_rel hf h h1 h2 hmu (fun x => ((delta (x / unit.kT) / unit.kT : ℝ) : ℂ)) t z
        unfold sum1 at e
        unfold coupling
        simp only [add_zero, h.kT]
        exact e
      have e2 : ∑ K, ∑ n, delta (sup.e K n / sup.kT) / sup.kT = ∑ k, ∑ n, delta (unit.e k n / unit.kT) / unit.kT := by
        rw [h.kT]
        exact sum0_rel hf h h1 h2 hmu fun x => delta (x / unit.kT) / unit.kT
      unfold fermiShift
      simp only [e1, e2]
      rw [← Finset.sum_mul, sum_phases hf _ hfq]
      by_cases hq0 : iq = 0
      · rw [if_pos hq0, hq0, hp, if_pos rfl, phase_zero hf, h.card, Nat.cast_mul C]
        generalize ((m1 * m2 * m3 : Nat) : ℂ) = x at hm ⊢
        field_simp
      · rw [if_neg hq0, if_neg (fun h0 => hq0 ((h.q0 iq).1 h0)), zero_mul, mul_zero]
    · have hq0 : iq ≠ 0 := by
        intro h0
        rw [h0, hp, fold_zero hf] at hq
        exact hQ ((h.Q0 iQ).1 hq.symm)
      simp [hQ, hq0]

/-- C155: if all corresponding wave vectors of the unit cell are considered, the Hessian of the supercell is known. -/
theorem C155_hessian_unique (eps : ℝ) (delta : ℝ → ℝ) (iQ : Fin (nQ + 1)) (hall : ∀ q, fold q = P iQ → ∃ iq, p iq = q)
    (D : X (C * nat) → X (C * nat) → ℂ)
    (hD : ∀ iq, fold (p iq) = P iQ → ∀ r x y, ∑ t, χ t (p iq) * D (displ (r, x)) (displ (t, y)) = χ r (p iq) * unit.hessian eps occ delta iq x y)
    (i j : X (C * nat)) : sup.hessian eps occ delta iQ i j = D i j := by
  obtain ⟨⟨r, x⟩, rfl⟩ := displ.surjective i
  obtain ⟨⟨t, y⟩, rfl⟩ := displ.surjective j
  refine unfold_unique hf (P iQ) (fun t => sup.hessian eps occ delta iQ (displ (r, x)) (displ (t, y))) (fun t => D (displ (r, x)) (displ (t, y))) ?_ t
  intro q hq
  obtain ⟨iq, rfl⟩ := hall q hq
  rw [hD iq hq r x y]
  exact C155_hessian hf h h1 h2 hmu eps delta iq iQ hq r x y

end Verif.MD.Repeat
