import Verif.MD.Call
import Verif.MD.Repeat
import Verif.ElPh.Supercell
import Verif.ElPh.LongRange
import Verif.Phon.SumRules

/-!
# Translational invariance from models to simulations (C166)

Acoustic sum rules are applied to models of the unit cell (`ph.Model(apply_asr=True)`, `elph.Model.asr`). What remains of them in a simulation on a
supercell?
-/

namespace Verif.MD.Translation

open Matrix
open Verif.Diag
open Verif.Lattice (V3 vadd Supercell detSpec)
open Verif.Fourier (phase)
open Verif.TB (Blocks tsc tsc_spec dynMat superK)
open Verif.ElPh (Coupling fourier blk weight State total)

/-! ### Specification -/

/-- Specification: the coupling to collective displacements vanishes. -/
def SumRule {nat : Nat} {O : Type} (c : Coupling (Fin nat × Fin 3) O) : Prop :=
  ∀ (x : Fin 3) (r : Fin c.nk) (a b : O), ∑ R, ∑ na, c.data R (na, x) r a b = 0

variable {n1 n2 n3 nb nat nq : Nat}

/-- Specification: Hermitian force constants and coupling; collective displacements cause no forces on springs and shift all energies by the same
amount (`c`, possibly zero). -/
structure Invariant (C0 : Fin (nq + 1) → X nat → X nat → ℂ) (d0 : Fin (nq + 1) → X nat → Mesh n1 n2 n3 → Matrix (Fin nb) (Fin nb) ℂ)
    (c : Fin 3 → ℝ) : Prop where
  herm : ∀ x y, star (C0 0 x y) = C0 0 y x
  springs : ∀ x y, ∑ na, C0 0 (na, x) y = 0
  coupling : ∀ x k, ∑ na, d0 0 (na, x) k = (c x : ℂ) • (1 : Matrix (Fin nb) (Fin nb) ℂ)

/-! ### Coupling in supercells -/

section supercells
variable {N1 N2 N3 : V3} {s : Supercell} {O : Type}

theorem phase_zero (R : V3) : phase R (fun _ => 0) = 1 := by simp [phase]

/-- **C166**: the coupling of the supercell to collective displacements vanishes if it does for the unit cell. -/
theorem C166_supercell (hD : detSpec N1 N2 N3 ≠ 0) (hs : Verif.Lattice.supercell N1 N2 N3 = some s) (c : Coupling (Fin nat × Fin 3) O)
    (hg : Function.Injective c.Rg) (hk : Function.Injective c.Rk) (hc : SumRule c) (c' : Coupling (Nat × (Fin nat × Fin 3)) (Nat × O))
    (h : Verif.ElPh.supercell s c = some c') (k : Fin 3 → ℝ) (x : Fin 3) (a b : Nat × O) :
    ∑ r ∈ Finset.range s.cells.length, ∑ na, fourier c' (fun _ => 0) k (r, (na, x)) a b = 0 := by
  have h1 : ∀ (r : Nat) (na : Fin nat), fourier c' (fun _ => 0) k (r, (na, x)) a b =
      ∑ i ∈ Finset.range s.cells.length, ∑ g, ∑ l, phase (blk s c i g l).R.2 k * Verif.ElPh.single (blk s c i g l) (r, (na, x)) a b := by
    intro r na
    rw [Verif.ElPh.fourier_eq, Verif.ElPh.supercell_wsum hD hs c hg hk c' h]
    simp only [weight, phase_zero, one_mul]
  simp only [h1]
  have h2 : ∀ (i : Nat) (g : Fin c.ng) (l : Fin c.nk), ∑ r ∈ Finset.range s.cells.length, ∑ na, phase (blk s c i g l).R.2 k *
      Verif.ElPh.single (blk s c i g l) (r, (na, x)) a b =
      (if a.1 = i ∧ b.1 = (blk s c i g l).rk then phase (blk s c i g l).R.2 k * ∑ na, c.data g (na, x) l a.2 b.2 else 0) := by
    intro i g l
    rw [Finset.sum_eq_single (blk s c i g l).rg]
    · rw [← Finset.mul_sum]
      unfold Verif.ElPh.single
      simp only [true_and]
      by_cases hab : a.1 = (blk s c i g l).i ∧ b.1 = (blk s c i g l).rk
      · rw [if_pos (show a.1 = i ∧ b.1 = (blk s c i g l).rk from hab)]
        simp only [if_pos hab]
        rfl
      · rw [if_neg (show ¬(a.1 = i ∧ b.1 = (blk s c i g l).rk) from hab)]
        simp only [if_neg hab, Finset.sum_const_zero, mul_zero]
    · intro r _ hr
      refine Finset.sum_eq_zero fun na _ => ?_
      simp [Verif.ElPh.single, hr]
    · intro hn
      exact absurd (Finset.mem_range.2 (tsc_spec hD hs (vadd (c.Rg g) (s.cells.getD i (0, 0, 0)))).1) hn
  have h3 : (∑ r ∈ Finset.range s.cells.length, ∑ na, ∑ i ∈ Finset.range s.cells.length, ∑ g, ∑ l,
      phase (blk s c i g l).R.2 k * Verif.ElPh.single (blk s c i g l) (r, (na, x)) a b) =
      ∑ i ∈ Finset.range s.cells.length, ∑ l, ∑ g, ∑ r ∈ Finset.range s.cells.length, ∑ na,
        phase (blk s c i g l).R.2 k * Verif.ElPh.single (blk s c i g l) (r, (na, x)) a b := by
    have e1 : ∀ r, (∑ na, ∑ i ∈ Finset.range s.cells.length, ∑ g, ∑ l,
        phase (blk s c i g l).R.2 k * Verif.ElPh.single (blk s c i g l) (r, (na, x)) a b) =
        ∑ i ∈ Finset.range s.cells.length, ∑ l, ∑ g, ∑ na, phase (blk s c i g l).R.2 k * Verif.ElPh.single (blk s c i g l) (r, (na, x)) a b := by
      intro r
      rw [Finset.sum_comm]
      refine Finset.sum_congr rfl fun i _ => ?_
      rw [Finset.sum_comm]
      rw [show (∑ g, ∑ na, ∑ l, phase (blk s c i g l).R.2 k * Verif.ElPh.single (blk s c i g l) (r, (na, x)) a b) =
        ∑ g, ∑ l, ∑ na, phase (blk s c i g l).R.2 k * Verif.ElPh.single (blk s c i g l) (r, (na, x)) a b from
        Finset.sum_congr rfl fun g _ => Finset.sum_comm]
      rw [Finset.sum_comm]
    simp only [e1]
    rw [Finset.sum_comm]
    refine Finset.sum_congr rfl fun i _ => ?_
    rw [Finset.sum_comm]
    refine Finset.sum_congr rfl fun l _ => ?_
    rw [Finset.sum_comm]
  rw [h3]
  simp only [h2]
  refine Finset.sum_eq_zero fun i _ => Finset.sum_eq_zero fun l _ => ?_
  have h4 : ∀ g : Fin c.ng, (if a.1 = i ∧ b.1 = (blk s c i g l).rk then phase (blk s c i g l).R.2 k * ∑ na, c.data g (na, x) l a.2 b.2 else 0) =
      (if a.1 = i ∧ b.1 = (tsc s (vadd (c.Rk l) (s.cells.getD i (0, 0, 0)))).2 then
        phase (tsc s (vadd (c.Rk l) (s.cells.getD i (0, 0, 0)))).1 k else 0) * ∑ na, c.data g (na, x) l a.2 b.2 := by
    intro g
    rw [ite_mul, zero_mul]
    rfl
  simp only [h4]
  rw [← Finset.mul_sum, hc x l a.2 b.2, mul_zero]

/-- **C166**: the same for the force constants. -/
theorem C166_springs (hD : detSpec N1 N2 N3 ≠ 0) (hs : Verif.Lattice.supercell N1 N2 N3 = some s) (l : Blocks (Fin nat × Fin 3) ℝ)
    (hnd : (l.map Prod.fst).Nodup) (hl : ∀ a (y : Fin 3), ∑ na, dynMat l (fun _ => 0) a (na, y) = 0)
    (m : Blocks (Nat × (Fin nat × Fin 3)) ℝ) (hm : Verif.TB.supercell s l = some m) (i : Nat) (hi : i < s.cells.length)
    (a : Fin nat × Fin 3) (y : Fin 3) :
    ∑ j ∈ Finset.range s.cells.length, ∑ na, dynMat m (fun _ => 0) (i, a) (j, (na, y)) = 0 := by
  have h0 : superK N1 N2 N3 (fun _ => 0) = fun _ => 0 := by
    funext x
    simp [superK]
  have h1 : ∀ na, ∑ j ∈ Finset.range s.cells.length, dynMat m (fun _ => 0) (i, a) (j, (na, y)) = dynMat l (fun _ => 0) a (na, y) := by
    intro na
    have := Verif.TB.C42_folding_ph N1 N2 N3 hD s hs l hnd m hm (fun _ => 0) i hi a (na, y)
    rw [h0] at this
    simpa only [phase_zero, one_mul] using this
  rw [Finset.sum_comm]
  simp only [h1, hl]

end supercells

/-! ### Simulation -/

section driver
variable [NeZero n1] [NeZero n2] [NeZero n3]

theorem coupling_band {C0 : Fin (nq + 1) → X nat → X nat → ℂ} (s : Driver n1 n2 n3 nb nat nq) (c : Fin 3 → ℝ)
    (hinv : Invariant C0 s.d0 c) (hU : ∀ k, (s.U k)ᴴ * s.U k = 1) (hq : OnMesh (s.q 0) (0 : Mesh n1 n2 n3)) (x : Fin 3)
    (k : Mesh n1 n2 n3) (m n : Fin nb) : ∑ na, s.d 0 (na, x) k m n = if m = n then (c x : ℂ) else 0 := by
  have h1 : ∑ na, ((s.U k)ᴴ * s.d0 0 (na, x) k * s.U k) = (c x : ℂ) • (1 : Matrix (Fin nb) (Fin nb) ℂ) := by
    rw [← Finset.sum_mul, ← Finset.mul_sum, hinv.coupling, Matrix.mul_smul, Matrix.smul_mul, Matrix.mul_one, hU]
  have h2 := congrFun (congrFun h1 m) n
  rw [Matrix.sum_apply] at h2
  have h3 : ∀ na, s.d 0 (na, x) k = (s.U k)ᴴ * s.d0 0 (na, x) k * s.U k := by
    intro na
    unfold Driver.d
    rw [slice_q _ _ 0 _ hq, add_zero]
  simp only [h3]
  rw [h2, Matrix.smul_apply, Matrix.one_apply, smul_eq_mul, mul_ite, mul_one, mul_zero]

/-- Electronic part of the Hessian for collective displacements. -/
theorem electronic_sum {C0 : Fin (nq + 1) → X nat → X nat → ℂ} (s : Driver n1 n2 n3 nb nat nq) (c : Fin 3 → ℝ)
    (hinv : Invariant C0 s.d0 c) (hU : ∀ k, (s.U k)ᴴ * s.U k = 1) (hq : OnMesh (s.q 0) (0 : Mesh n1 n2 n3)) (eps : ℝ) (heps : 0 ≤ eps)
    (occ delta : ℝ → ℝ) (hdos : ∑ k, ∑ n, delta (s.e k n / s.kT) / s.kT ≠ 0) (x : Fin 3) (y : X nat) :
    ∑ na, s.electronic eps occ delta 0 (na, x) y = 0 := by
  have hD0 : ((∑ k, ∑ n, delta (s.e k n / s.kT) / s.kT : ℝ) : ℂ) ≠ 0 := Complex.ofReal_ne_zero.2 hdos
  have hb := coupling_band s c hinv hU hq
  unfold Driver.electronic
  simp only [if_true]
  rw [Finset.sum_add_distrib]
  have h1 : ∑ na, fermiShift s.kT delta s.e (s.d 0) (na, x) y =
      2 / (n1 * n2 * n3 : Nat) * (c x : ℂ) * ∑ k, ∑ n, ((delta (s.e k n / s.kT) / s.kT : ℝ) : ℂ) * s.d 0 y k n n := by
    unfold fermiShift
    simp only
    rw [← Finset.mul_sum, ← Finset.sum_mul, ← Finset.sum_div]
    have e1 : ∑ na : Fin nat, ∑ k, ∑ n, ((delta (s.e k n / s.kT) / s.kT : ℝ) : ℂ) * s.d 0 (na, x) k n n =
        (c x : ℂ) * ((∑ k, ∑ n, delta (s.e k n / s.kT) / s.kT : ℝ) : ℂ) := by
      push_cast
      rw [Finset.sum_comm, Finset.mul_sum]
      refine Finset.sum_congr rfl fun k _ => ?_
      rw [Finset.sum_comm, Finset.mul_sum]
      refine Finset.sum_congr rfl fun n _ => ?_
      rw [← Finset.mul_sum, hb, if_pos rfl, mul_comm]
    rw [e1]
    field_simp
  have h2 : ∑ na, selfEnergy false false (fun k m n => (weights eps s.kT occ delta none s.e (s.q 0) k m n : ℂ)) (fun _ _ => 0) (s.d 0) none
      (na, x) y = -(2 / (n1 * n2 * n3 : Nat) * (c x : ℂ) * ∑ k, ∑ n, ((delta (s.e k n / s.kT) / s.kT : ℝ) : ℂ) * s.d 0 y k n n) := by
    unfold selfEnergy contact piK
    simp only [Complex.ofReal_zero, zero_div, mul_zero, zero_mul, Finset.sum_const_zero, add_zero, Bool.false_eq_true, false_and, if_false]
    have e2 : ∑ na : Fin nat, ∑ k, ∑ m, ∑ n, star (s.d 0 (na, x) k m n) * s.d 0 y k m n *
        (weights eps s.kT occ delta none s.e (s.q 0) k m n : ℂ) =
        -((c x : ℂ) * ∑ k, ∑ n, ((delta (s.e k n / s.kT) / s.kT : ℝ) : ℂ) * s.d 0 y k n n) := by
      rw [Finset.sum_comm, Finset.mul_sum, ← Finset.sum_neg_distrib]
      refine Finset.sum_congr rfl fun k _ => ?_
      rw [Finset.sum_comm, Finset.mul_sum, ← Finset.sum_neg_distrib]
      refine Finset.sum_congr rfl fun m _ => ?_
      rw [Finset.sum_comm, Finset.sum_eq_single m]
      · rw [← Finset.sum_mul, ← Finset.sum_mul, ← star_sum, hb, if_pos rfl, weights_diagonal eps s.kT heps occ delta s.e (s.q 0) hq]
        rw [Complex.star_def, Complex.conj_ofReal]
        push_cast
        ring
      · intro n _ hn
        rw [← Finset.sum_mul, ← Finset.sum_mul, ← star_sum, hb, if_neg hn.symm, star_zero, zero_mul, zero_mul]
      · simp
    rw [← Finset.mul_sum, e2]
    ring
  rw [h1, h2, neg_add_cancel]

theorem electronic_symm (s : Driver n1 n2 n3 nb nat nq) (eps : ℝ) (occ delta : ℝ → ℝ) (x y : X nat) :
    (s.electronic eps occ delta 0 x y).re = (s.electronic eps occ delta 0 y x).re := by
  unfold Driver.electronic
  simp only [if_true]
  rw [Complex.add_re, Complex.add_re]
  refine congrArg₂ (· + ·) ?_ ?_
  · rw [← C52_hermitian eps s.kT occ delta none false false (fun _ _ => 0) s.e (s.q 0) (s.d 0) x y, Complex.star_def, Complex.conj_re]
  · unfold fermiShift
    simp only
    congr 2
    exact mul_comm _ _

/-- Sum of forces. -/
theorem jacobian_sum {occ : ℝ → ℝ} (s : Driver n1 n2 n3 nb nat nq) (hs : Diagonalized occ s) (c : Fin 3 → ℝ)
    (hC : ∀ x y, ∑ na, (s.C0 0 (na, x) y).re = 0) (hd : ∀ x k, ∑ na, s.d0 0 (na, x) k = (c x : ℂ) • (1 : Matrix (Fin nb) (Fin nb) ℂ))
    (x : Fin 3) : ∑ na, s.jacobian occ (na, x) = c x * s.n + ∑ na, s.F0 (na, x) := by
  unfold Driver.jacobian
  rw [Finset.sum_add_distrib, Finset.sum_add_distrib]
  have h1 : ∑ na, ∑ y, (s.C0 0 (na, x) y).re * s.u y = 0 := by
    rw [Finset.sum_comm]
    refine Finset.sum_eq_zero fun y _ => ?_
    rw [← Finset.sum_mul, hC, zero_mul]
  rw [h1, add_zero, ← Complex.re_sum]
  congr 1
  have h2 : ∑ na, firstOrderU s.kT occ s.e s.U (s.d0 0 (na, x)) = ((c x * s.n : ℝ) : ℂ) := by
    have h3 : ∀ k m, ∑ a, s.U k a m * star (s.U k a m) = 1 := by
      intro k m
      have := congrFun (congrFun (hs.unitary k) m) m
      rw [Matrix.mul_apply, Matrix.one_apply_eq] at this
      rw [← this]
      refine Finset.sum_congr rfl fun a _ => ?_
      rw [Matrix.conjTranspose_apply, mul_comm]
    unfold firstOrderU
    rw [← Finset.mul_sum]
    have h4 : ∑ na : Fin nat, ∑ k, ∑ a, ∑ b, (∑ m, s.U k a m * (occ (s.e k m / s.kT) : ℂ) * star (s.U k b m)) * s.d0 0 (na, x) k b a =
        (c x : ℂ) * ((∑ k, ∑ n, occ (s.e k n / s.kT) : ℝ) : ℂ) := by
      push_cast
      rw [Finset.sum_comm, Finset.mul_sum]
      refine Finset.sum_congr rfl fun k _ => ?_
      have e1 : ∑ na : Fin nat, ∑ a, ∑ b, (∑ m, s.U k a m * (occ (s.e k m / s.kT) : ℂ) * star (s.U k b m)) * s.d0 0 (na, x) k b a =
          ∑ a, ∑ b, (∑ m, s.U k a m * (occ (s.e k m / s.kT) : ℂ) * star (s.U k b m)) * ((c x : ℂ) * if b = a then 1 else 0) := by
        rw [Finset.sum_comm]
        refine Finset.sum_congr rfl fun a _ => ?_
        rw [Finset.sum_comm]
        refine Finset.sum_congr rfl fun b _ => ?_
        rw [← Finset.mul_sum]
        congr 1
        have := congrFun (congrFun (hd x k) b) a
        rw [Matrix.sum_apply, Matrix.smul_apply, Matrix.one_apply, smul_eq_mul] at this
        exact this
      rw [e1]
      have e2 : ∀ a, ∑ b, (∑ m, s.U k a m * (occ (s.e k m / s.kT) : ℂ) * star (s.U k b m)) * ((c x : ℂ) * if b = a then 1 else 0) =
          ∑ m, (c x : ℂ) * (occ (s.e k m / s.kT) : ℂ) * (s.U k a m * star (s.U k a m)) := by
        intro a
        rw [Finset.sum_eq_single a]
        · rw [if_pos rfl, mul_one, Finset.sum_mul]
          exact Finset.sum_congr rfl fun m _ => by ring
        · intro b _ hb
          rw [if_neg hb, mul_zero, mul_zero]
        · simp
      simp only [e2]
      rw [Finset.sum_comm, Finset.mul_sum]
      refine Finset.sum_congr rfl fun m _ => ?_
      rw [← Finset.mul_sum, h3, mul_one]
    rw [h4]
    have h5 := hs.number
    rw [← h5]
    push_cast
    ring
  rw [h2, Complex.ofReal_re]

variable {occ : ℝ → ℝ} {eigh : Matrix (Fin nb) (Fin nb) ℂ → (Fin nb → ℝ) × Matrix (Fin nb) (Fin nb) ℂ} {level : (Mesh n1 n2 n3 → Fin nb → ℝ) → ℝ}

/-- **C166**: in a simulation, forces do not act on the centre of mass and the Hessian annihilates collective displacements, for all positions of
the atoms, with and without unscreening. -/
theorem C166_simulation [NeZero nb] (eps : ℝ) (heps : 0 ≤ eps) (delta entropy : ℝ → ℝ) (hdelta : ∀ x, 0 < delta x) (unscreen : Bool) (kT n : ℝ)
    (hkT : 0 < kT) (q : Fin (nq + 1) → Fin 3 → ℝ) (hq : q 0 = fun _ => 0) (H0 : Mesh n1 n2 n3 → Matrix (Fin nb) (Fin nb) ℂ)
    (C0 : Fin (nq + 1) → X nat → X nat → ℂ) (d0 : Fin (nq + 1) → X nat → Mesh n1 n2 n3 → Matrix (Fin nb) (Fin nb) ℂ) (c : Fin 3 → ℝ)
    (hinv : Invariant C0 d0 c) (h : Externals occ eigh level (Driver.init eigh level eps occ delta unscreen kT n q H0 C0 d0)) (r0 r : X nat → ℝ)
    (x : Fin 3) :
    ∑ na, ((Driver.init eigh level eps occ delta unscreen kT n q H0 C0 d0).call eigh level occ entropy r0 r).2.1 (na, x) = 0 ∧
    ∀ y, ∑ na, ((Driver.init eigh level eps occ delta unscreen kT n q H0 C0 d0).at eigh level r0 r).hessianGamma eps occ delta (na, x) y = 0 ∧
      ∑ na, ((Driver.init eigh level eps occ delta unscreen kT n q H0 C0 d0).at eigh level r0 r).hessianGamma eps occ delta y (na, x) = 0 := by
  have hq0 : OnMesh (q 0) (0 : Mesh n1 n2 n3) := ⟨fun _ => 0, by rw [hq]; simp, by rw [hq]; simp, by rw [hq]; simp⟩
  have hdos : ∀ e : Mesh n1 n2 n3 → Fin nb → ℝ, ∑ k, ∑ n, delta (e k n / kT) / kT ≠ 0 := by
    intro e
    refine (Finset.sum_pos (fun k _ => Finset.sum_pos (fun n _ => div_pos (hdelta _) hkT) ?_) ?_).ne'
    · exact ⟨0, Finset.mem_univ _⟩
    · exact ⟨0, Finset.mem_univ _⟩
  -- the state in which the driver is set up
  set s0 : Driver n1 n2 n3 nb nat nq := (⟨kT, n, q, H0, C0, d0, fun _ => 0, fun _ => 0, fun _ _ => 0, fun _ => 0, 0⟩ :
    Driver n1 n2 n3 nb nat nq).diagonalize eigh level with hs0
  set s := Driver.init eigh level eps occ delta unscreen kT n q H0 C0 d0 with hs
  have hsd : s.d0 = d0 := by rw [hs]; unfold Driver.init; cases unscreen <;> rfl
  have hsq : s.q = q := by rw [hs]; unfold Driver.init; cases unscreen <;> rfl
  have hsk : s.kT = kT := by rw [hs]; unfold Driver.init; cases unscreen <;> rfl
  have hsn : s.n = n := by rw [hs]; unfold Driver.init; cases unscreen <;> rfl
  have hsH : s.H0 = H0 := by rw [hs]; unfold Driver.init; cases unscreen <;> rfl
  have hE : Externals occ eigh level s0 := by
    refine ⟨h.eig, h.unitary, fun e => ?_, fun k => ?_, fun x k => ?_⟩
    · have := h.number e
      rw [hsk, hsn] at this
      exact this
    · have := h.hamiltonian k
      rw [hsH] at this
      exact this
    · have := h.coupling x k
      rw [hsd] at this
      exact this
  have hdiag0 : Diagonalized occ s0 := C89_diagonalized occ eigh level _ h.eig h.unitary hE.number hE.hamiltonian hE.coupling
  have hel0 : ∀ x y, ∑ na, s0.electronic eps occ delta 0 (na, x) y = 0 := fun x y =>
    electronic_sum (C0 := C0) s0 c hinv hdiag0.unitary hq0 eps heps occ delta (hdos s0.e) x y
  have hsC : s.C0 = if unscreen then fun iq x y => C0 iq x y - (s0.hessian eps occ delta iq x y - C0 iq x y) else C0 := by
    rw [hs]
    unfold Driver.init
    cases unscreen <;> rfl
  have hC : ∀ x y, ∑ na, s.C0 0 (na, x) y = 0 := by
    intro x y
    rw [hsC]
    cases unscreen
    · exact hinv.springs x y
    · simp only [if_true]
      have : ∀ na, C0 0 (na, x) y - (s0.hessian eps occ delta 0 (na, x) y - C0 0 (na, x) y) =
          C0 0 (na, x) y - s0.electronic eps occ delta 0 (na, x) y := by
        intro na
        show _ - (s0.electronic eps occ delta 0 (na, x) y + C0 0 (na, x) y - _) = _
        ring
      simp only [this]
      rw [Finset.sum_sub_distrib, hinv.springs, hel0, sub_zero]
  have hCs : ∀ x y, (s.C0 0 x y).re = (s.C0 0 y x).re := by
    intro x y
    have h0 : (C0 0 x y).re = (C0 0 y x).re := by
      rw [← hinv.herm y x, Complex.star_def, Complex.conj_re]
    rw [hsC]
    cases unscreen
    · exact h0
    · simp only [if_true, Complex.sub_re]
      unfold Driver.hessian
      rw [Complex.add_re, Complex.add_re, electronic_symm s0 eps occ delta x y, h0]
      rw [show (s0.C0 0 x y).re = (s0.C0 0 y x).re from h0]
  have hCre : ∀ x y, ∑ na, (s.C0 0 (na, x) y).re = 0 := by
    intro x y
    rw [← Complex.re_sum, hC, Complex.zero_re]
  have hF : ∀ x, ∑ na, s.F0 (na, x) = -(c x * n) := by
    intro x
    have hj := jacobian_sum ({ s0 with C0 := s.C0 } : Driver n1 n2 n3 nb nat nq) ⟨hdiag0.eig, hdiag0.unitary, hdiag0.number⟩ c hCre hinv.coupling x
    have hf : ∀ na, s.F0 (na, x) = -({ s0 with C0 := s.C0 } : Driver n1 n2 n3 nb nat nq).jacobian occ (na, x) := by
      intro na
      rw [hsC, hs]
      unfold Driver.init
      cases unscreen <;> rfl
    simp only [hf]
    rw [Finset.sum_neg_distrib, hj]
    have : ∑ na, s0.F0 (na, x) = 0 := by
      show ∑ na : Fin nat, (0 : ℝ) = 0
      simp
    rw [this, add_zero]
    rfl
  have hdiag := at_diagonalized h r0 r
  have h1 : ∑ na, (s.at eigh level r0 r).jacobian occ (na, x) = 0 := by
    rw [jacobian_sum (s.at eigh level r0 r) hdiag c hCre (by rw [show (s.at eigh level r0 r).d0 = d0 from hsd]; exact hinv.coupling) x]
    rw [show (s.at eigh level r0 r).F0 = s.F0 from rfl, hF, show (s.at eigh level r0 r).n = n from hsn]
    ring
  have h2 : ∀ y, ∑ na, (s.at eigh level r0 r).hessianGamma eps occ delta (na, x) y = 0 := by
    intro y
    unfold Driver.hessianGamma Driver.hessian
    rw [← Complex.re_sum, Finset.sum_add_distrib]
    rw [electronic_sum (C0 := C0) (s.at eigh level r0 r) c (by rw [show (s.at eigh level r0 r).d0 = d0 from hsd]; exact hinv) hdiag.unitary
      (by rw [show (s.at eigh level r0 r).q = q from hsq]; exact hq0) eps heps occ delta
      (by rw [show (s.at eigh level r0 r).kT = kT from hsk]; exact hdos _) x y]
    rw [show (s.at eigh level r0 r).C0 = s.C0 from rfl, hC, add_zero, Complex.zero_re]
  have h3 : ∀ x y, (s.at eigh level r0 r).hessianGamma eps occ delta x y = (s.at eigh level r0 r).hessianGamma eps occ delta y x := by
    intro x y
    unfold Driver.hessianGamma Driver.hessian
    rw [Complex.add_re, Complex.add_re, electronic_symm]
    exact congrArg _ (hCs x y)
  refine ⟨?_, fun y => ⟨h2 y, ?_⟩⟩
  · simp only [Driver.call]
    rw [← Finset.mul_sum, h1, mul_zero]
  · simp only [h3 y]
    exact h2 y

/-- Symmetric force constants of the driver. -/
theorem init_symm (eps : ℝ) (delta : ℝ → ℝ) (unscreen : Bool) (kT n : ℝ)
    (q : Fin (nq + 1) → Fin 3 → ℝ) (H0 : Mesh n1 n2 n3 → Matrix (Fin nb) (Fin nb) ℂ)
    (C0 : Fin (nq + 1) → X nat → X nat → ℂ) (d0 : Fin (nq + 1) → X nat → Mesh n1 n2 n3 → Matrix (Fin nb) (Fin nb) ℂ)
    (hC : ∀ x y, star (C0 0 x y) = C0 0 y x) (x y : X nat) :
    ((Driver.init eigh level eps occ delta unscreen kT n q H0 C0 d0).C0 0 x y).re =
      ((Driver.init eigh level eps occ delta unscreen kT n q H0 C0 d0).C0 0 y x).re := by
  have h0 : (C0 0 x y).re = (C0 0 y x).re := by
    rw [← hC y x, Complex.star_def, Complex.conj_re]
  unfold Driver.init
  cases unscreen
  · exact h0
  · simp only [if_true, Complex.sub_re]
    set s0 : Driver n1 n2 n3 nb nat nq := (⟨kT, n, q, H0, C0, d0, fun _ => 0, fun _ => 0, fun _ _ => 0, fun _ => 0, 0⟩ :
      Driver n1 n2 n3 nb nat nq).diagonalize eigh level with hs0
    unfold Driver.hessian
    rw [Complex.add_re, Complex.add_re, electronic_symm s0 eps occ delta x y]
    rw [show (s0.C0 0 x y).re = (s0.C0 0 y x).re from h0]

/-- **C166**: in such a simulation, the forces are minus the derivative of the energy, even if only a part of the atoms is moved. -/
theorem C166_gradient [NeZero nb] (eps : ℝ) (heps : 0 ≤ eps) (delta entropy : ℝ → ℝ) (hdelta : ∀ x, 0 < delta x) (hocc : StrictAnti occ)
    (ho : ∀ x, HasDerivAt occ (-delta x) x) (hs : ∀ x, HasDerivAt entropy (-x * delta x) x) (unscreen : Bool) (kT n : ℝ)
    (hkT : 0 < kT) (q : Fin (nq + 1) → Fin 3 → ℝ) (hq : q 0 = fun _ => 0) (H0 : Mesh n1 n2 n3 → Matrix (Fin nb) (Fin nb) ℂ)
    (C0 : Fin (nq + 1) → X nat → X nat → ℂ) (d0 : Fin (nq + 1) → X nat → Mesh n1 n2 n3 → Matrix (Fin nb) (Fin nb) ℂ) (c : Fin 3 → ℝ)
    (hinv : Invariant C0 d0 c) (h : Externals occ eigh level (Driver.init eigh level eps occ delta unscreen kT n q H0 C0 d0)) (r0 : X nat → ℝ)
    (r : ℝ → X nat → ℝ) (r' : X nat → ℝ) (t : ℝ) (hr : Smooth occ (Driver.init eigh level eps occ delta unscreen kT n q H0 C0 d0) r0 r r' t) :
    HasDerivAt (fun τ => ((Driver.init eigh level eps occ delta unscreen kT n q H0 C0 d0).call eigh level occ entropy r0 (r τ)).1)
      (-∑ x, ((Driver.init eigh level eps occ delta unscreen kT n q H0 C0 d0).call eigh level occ entropy r0 (r t)).2.1 x * r' x) t := by
  have hsum := fun x => (C166_simulation eps heps delta entropy hdelta unscreen kT n hkT q hq H0 C0 d0 c hinv h r0 (r t) x).1
  have hsym := init_symm (occ := occ) (eigh := eigh) (level := level) eps delta unscreen kT n q H0 C0 d0 hinv.herm
  have hk : (Driver.init eigh level eps occ delta unscreen kT n q H0 C0 d0).kT = kT := by unfold Driver.init; cases unscreen <;> rfl
  set s := Driver.init eigh level eps occ delta unscreen kT n q H0 C0 d0
  have hk' : 0 < s.kT := by rw [hk]; exact hkT
  obtain ⟨e, U, mu, e', U', mu', hp⟩ := hr
  have hE : (fun τ => (s.call eigh level occ entropy r0 (r τ)).1) = fun τ =>
      0.5 * (s.move (center fun x => r τ x - r0 x) (e τ) (U τ) (mu τ)).freeEnergy occ entropy := by
    funext τ
    exact congrArg (0.5 * ·) (at_path h hocc hk' r0 (r τ) (hp.diag τ) entropy).1
  rw [hE]
  refine ((C89_gradient hp delta entropy hk'.ne' (fun _ _ => ho _) (fun _ _ => hs _) hsym).const_mul 0.5).congr_deriv ?_
  have hJ := (at_path h hocc hk' r0 (r t) (hp.diag t) entropy).2
  have hF : ∀ x, (s.call eigh level occ entropy r0 (r t)).2.1 x =
      -0.5 * (s.move (center fun x => r t x - r0 x) (e t) (U t) (mu t)).jacobian occ x := by
    intro x
    simp only [Driver.call, hJ]
  have h1 : ∀ x, 0.5 * ((s.move (center fun x => r t x - r0 x) (e t) (U t) (mu t)).jacobian occ x * center r' x) =
      -((s.call eigh level occ entropy r0 (r t)).2.1 x * r' x) + (s.call eigh level occ entropy r0 (r t)).2.1 x * ((∑ na, r' (na, x.2)) / nat) := by
    intro x
    rw [hF]
    unfold center
    ring
  rw [Finset.mul_sum, Finset.sum_congr rfl fun x _ => h1 x, Finset.sum_add_distrib, Finset.sum_neg_distrib, add_eq_left,
    Fintype.sum_prod_type, Finset.sum_comm]
  refine Finset.sum_eq_zero fun y _ => ?_
  simp only
  rw [← Finset.sum_mul, hsum, zero_mul]

end driver

/-! ### From models to simulations -/

section models
variable {N1 N2 N3 : V3} {s : Supercell}

/-- Specification: the interaction of two atoms is the same in both directions. -/
def Symmetric (l : Blocks (Fin nat × Fin 3) ℝ) : Prop :=
  (l.map fun e => ((-e.1.1, -e.1.2.1, -e.1.2.2), fun x y => e.2 y x)).Perm l

theorem equivalent_neg (R c d : V3) (h : Verif.Lattice.Equivalent N1 N2 N3 (vadd (-R.1, -R.2.1, -R.2.2) c) d) :
    Verif.Lattice.Equivalent N1 N2 N3 (vadd R d) c := by
  obtain ⟨n, hn⟩ := h
  refine ⟨(-n.1, -n.2.1, -n.2.2), ?_⟩
  simp only [Verif.Lattice.latPoint, vadd, Prod.mk.injEq] at hn ⊢
  obtain ⟨h1, h2, h3⟩ := hn
  refine ⟨?_, ?_, ?_⟩
  · linear_combination -h1
  · linear_combination -h2
  · linear_combination -h3

theorem dynMat_symm (hD : detSpec N1 N2 N3 ≠ 0) (hs : Verif.Lattice.supercell N1 N2 N3 = some s) (l : Blocks (Fin nat × Fin 3) ℝ)
    (hnd : (l.map Prod.fst).Nodup) (hl : Symmetric l) (m : Blocks (Nat × (Fin nat × Fin 3)) ℝ) (hm : Verif.TB.supercell s l = some m)
    (i j : Nat) (hi : i < s.cells.length) (hj : j < s.cells.length) (a b : Fin nat × Fin 3) :
    star (dynMat m (fun _ => 0) (i, a) (j, b)) = dynMat m (fun _ => 0) (j, b) (i, a) := by
  classical
  obtain ⟨p, hp, hp'⟩ := Verif.TB.C42_sparse N1 N2 N3 hD s hs l
  obtain ⟨p2, d, h1, h2, h3⟩ := Verif.TB.C42_sparse_dense N1 N2 N3 hD s hs l hnd
  rw [hp] at h1
  rw [hm] at h2
  obtain rfl := Option.some.inj h1
  obtain rfl := Option.some.inj h2
  rw [← h3, ← h3, Complex.star_def, Complex.conj_ofReal]
  congr 1
  rw [hp' i j _ _ (List.getElem?_eq_getElem hi) (List.getElem?_eq_getElem hj), hp' j i _ _ (List.getElem?_eq_getElem hj) (List.getElem?_eq_getElem hi)]
  rw [← (hl.map _).sum_eq, List.map_map]
  congr 1
  refine List.map_congr_left fun e _ => ?_
  simp only [Function.comp]
  refine if_congr ⟨equivalent_neg _ _ _, fun h => ?_⟩ rfl rfl
  refine equivalent_neg (-e.1.1, -e.1.2.1, -e.1.2.2) _ _ ?_
  simpa only [neg_neg] using h

/-- **C166**: if the sum rules have been applied to force constants and coupling of the unit cell (no matter how far they have been from fulfilling
them), the data from which a driver for a supercell is set up are translationally invariant. Long-range terms of the coupling (`f`) shift all energies
by the same amount at most. -/
theorem C166_models {kpt : Mesh n1 n2 n3 → Fin 3 → ℝ} (hD : detSpec N1 N2 N3 ≠ 0) (hs : Verif.Lattice.supercell N1 N2 N3 = some s)
    (l : Blocks (Fin nat × Fin 3) ℝ) (hnd : (l.map Prod.fst).Nodup) (hsym : Symmetric l)
    (hl : ∀ a (y : Fin 3), ∑ na, dynMat l (fun _ => 0) a (na, y) = 0)
    (m : Blocks (Nat × (Fin nat × Fin 3)) ℝ) (hm : Verif.TB.supercell s l = some m)
    (c : Coupling (Fin nat × Fin 3) (Fin nb)) (hg : Function.Injective c.Rg) (hk : Function.Injective c.Rk)
    (c' : Coupling (Nat × (Fin nat × Fin 3)) (Nat × Fin nb)) (h : Verif.ElPh.supercell s (Verif.ElPh.asr c) = some c')
    (f : Fin s.cells.length × X nat → ℝ)
    (C0 : Fin (nq + 1) → X (s.cells.length * nat) → X (s.cells.length * nat) → ℂ)
    (hC0 : ∀ i j x y, C0 0 (Repeat.displ (i, x)) (Repeat.displ (j, y)) = dynMat m (fun _ => 0) ((i : ℕ), x) ((j : ℕ), y))
    (d0 : Fin (nq + 1) → X (s.cells.length * nat) → Mesh n1 n2 n3 → Matrix (Fin (s.cells.length * nb)) (Fin (s.cells.length * nb)) ℂ)
    (hd0 : ∀ i k a b, d0 0 (Repeat.displ i) k a b = fourier c' (fun _ => 0) (kpt k) ((i.1 : ℕ), i.2) (((Derivatives.split a).1 : ℕ), (Derivatives.split a).2)
      (((Derivatives.split b).1 : ℕ), (Derivatives.split b).2) + if a = b then (f i : ℂ) else 0) :
    Invariant C0 d0 fun x => ∑ i, ∑ na, f (i, (na, x)) := by
  have hsum : ∀ {β : Type} [AddCommMonoid β] (g : X (s.cells.length * nat) → β) (x : Fin 3), ∑ na, g (na, x) =
      ∑ i : Fin s.cells.length, ∑ na : Fin nat, g (Repeat.displ (i, (na, x))) := by
    intro β _ g x
    rw [← Equiv.sum_comp Derivatives.split.symm, Fintype.sum_prod_type]
    rfl
  have hcell : ∀ (x y : X (s.cells.length * nat)), star (C0 0 x y) = C0 0 y x := by
    intro x y
    obtain ⟨⟨i, x⟩, rfl⟩ := Repeat.displ.surjective x
    obtain ⟨⟨j, y⟩, rfl⟩ := Repeat.displ.surjective y
    rw [hC0, hC0]
    exact dynMat_symm hD hs l hnd hsym m hm i j i.2 j.2 x y
  refine ⟨hcell, fun x y => ?_, fun x k => ?_⟩
  · obtain ⟨⟨j, y⟩, rfl⟩ := Repeat.displ.surjective y
    have h1 : ∑ na, C0 0 (Repeat.displ (j, y)) (na, x) = 0 := by
      rw [hsum (fun z => C0 0 (Repeat.displ (j, y)) z)]
      simp only [hC0]
      have := C166_springs hD hs l hnd hl m hm j j.2 y x
      rw [Finset.sum_range] at this
      exact this
    have h2 : ∑ na, C0 0 (na, x) (Repeat.displ (j, y)) = star (∑ na, C0 0 (Repeat.displ (j, y)) (na, x)) := by
      rw [star_sum]
      exact Finset.sum_congr rfl fun na _ => (hcell _ _).symm
    rw [h2, h1, star_zero]
  · rw [hsum (fun z => d0 0 z k)]
    ext a b
    simp only [Matrix.sum_apply, hd0, Finset.sum_add_distrib]
    have h1 := C166_supercell hD hs (Verif.ElPh.asr c) hg hk (fun x r a b => Verif.ElPh.C45_elph c x r a b) c' h (kpt k) x
      (((Derivatives.split a).1 : ℕ), (Derivatives.split a).2) (((Derivatives.split b).1 : ℕ), (Derivatives.split b).2)
    rw [Finset.sum_range] at h1
    rw [h1, zero_add, Matrix.smul_apply, Matrix.one_apply, smul_eq_mul]
    by_cases hab : a = b
    · simp only [if_pos hab, mul_one]
      push_cast
      rfl
    · simp only [if_neg hab, Finset.sum_const_zero, mul_zero]

end models

/-! ### Hermitian coupling -/

section hermitian
variable {O : Type}

/-- Specification: coupling for given lattice vectors. -/
noncomputable def element {Y : Type} (c : Coupling Y O) (R S : V3) (x : Y) (a b : O) : ℂ :=
  ∑ g, ∑ r, if c.Rg g = R ∧ c.Rk r = S then c.data g x r a b else 0

/-- Specification: the coupling is Hermitian, i.e., an electron going from one orbital to another couples to an atom as one going back. -/
def Hermitian {Y : Type} (c : Coupling Y O) : Prop :=
  ∀ (R S : V3) (x : Y) (a b : O), star (element c R S x a b) = element c (R.1 - S.1, R.2.1 - S.2.1, R.2.2 - S.2.2) (-S.1, -S.2.1, -S.2.2) x b a

theorem element_data {Y : Type} (c : Coupling Y O) (hg : Function.Injective c.Rg) (hk : Function.Injective c.Rk) (g : Fin c.ng) (r : Fin c.nk)
    (x : Y) (a b : O) : element c (c.Rg g) (c.Rk r) x a b = c.data g x r a b := by
  unfold element
  rw [Finset.sum_eq_single g, Finset.sum_eq_single r]
  · simp
  · intro r' _ hr
    rw [if_neg fun h => hr (hk h.2)]
  · simp
  · intro g' _ hg'
    exact Finset.sum_eq_zero fun r' _ => if_neg fun h => hg' (hg h.1)
  · simp

theorem element_none {Y : Type} (c : Coupling Y O) (R S : V3) (h : (¬∃ g, c.Rg g = R) ∨ ¬∃ r, c.Rk r = S) (x : Y) (a b : O) :
    element c R S x a b = 0 := by
  unfold element
  refine Finset.sum_eq_zero fun g _ => Finset.sum_eq_zero fun r _ => if_neg fun hgr => ?_
  rcases h with h | h
  · exact h ⟨g, hgr.1⟩
  · exact h ⟨r, hgr.2⟩

/-- Sum over stored lattice vectors as a sum over all. -/
theorem sum_all {Y : Type} (c : Coupling Y O) (hg : Function.Injective c.Rg) (F : V3 → ℂ) (hF : ∀ R, (¬∃ g, c.Rg g = R) → F R = 0) :
    ∑ g, F (c.Rg g) = ∑ᶠ R, F R := by
  classical
  rw [finsum_eq_sum_of_support_subset (s := Finset.univ.image c.Rg) F, Finset.sum_image fun _ _ _ _ h => hg h]
  intro R hR
  by_contra hn
  refine hR (hF R fun ⟨g, hgR⟩ => hn ?_)
  rw [Finset.coe_image, Finset.coe_univ]
  exact ⟨g, trivial, hgR⟩

theorem sum_shift (F : V3 → ℂ) (S : V3) : ∑ᶠ R : V3, F (R.1 - S.1, R.2.1 - S.2.1, R.2.2 - S.2.2) = ∑ᶠ R, F R :=
  finsum_comp_equiv (f := F) ⟨fun R => (R.1 - S.1, R.2.1 - S.2.1, R.2.2 - S.2.2), fun R => (R.1 + S.1, R.2.1 + S.2.1, R.2.2 + S.2.2),
    fun R => by simp, fun R => by simp⟩

variable {nat : Nat}

/-- Sum over lattice vectors and atoms of a function that vanishes at zero. -/
theorem sum_transpose (c : Coupling (Fin nat × Fin 3) O) (hg : Function.Injective c.Rg) (hh : Hermitian c) (F : ℂ → ℂ) (hF : F 0 = 0)
    (S : V3) (x : Fin 3) (a b : O) :
    ∑ g, ∑ na, F (star (element c (c.Rg g) S (na, x) a b)) = ∑ g, ∑ na, F (element c (c.Rg g) (-S.1, -S.2.1, -S.2.2) (na, x) b a) := by
  rw [sum_all c hg (fun R => ∑ na, F (star (element c R S (na, x) a b)))]
  · rw [sum_all c hg (fun R => ∑ na, F (element c R (-S.1, -S.2.1, -S.2.2) (na, x) b a))]
    · rw [← sum_shift (fun R => ∑ na, F (element c R (-S.1, -S.2.1, -S.2.2) (na, x) b a)) S]
      refine finsum_congr fun R => Finset.sum_congr rfl fun na _ => ?_
      rw [hh R S]
    · intro R hR
      exact Finset.sum_eq_zero fun na _ => by rw [element_none c R _ (Or.inl hR), hF]
  · intro R hR
    exact Finset.sum_eq_zero fun na _ => by rw [element_none c R S (Or.inl hR), star_zero, hF]

open Classical in
/-- Result of `asr` in terms of the coupling for given lattice vectors. -/
theorem element_asr (c : Coupling (Fin nat × Fin 3) O) (hg : Function.Injective c.Rg) (hk : Function.Injective c.Rk) (R S : V3)
    (x : Fin nat × Fin 3) (a b : O) : element (Verif.ElPh.asr c) R S x a b = element c R S x a b -
      ((‖element c R S x a b‖ / (if ∑ g, ∑ na, ‖element c (c.Rg g) S (na, x.2) a b‖ = 0 then 1 else
        ∑ g, ∑ na, ‖element c (c.Rg g) S (na, x.2) a b‖) : ℝ) : ℂ) * ∑ g, ∑ na, element c (c.Rg g) S (na, x.2) a b := by
  by_cases h : (∃ g, c.Rg g = R) ∧ ∃ r, c.Rk r = S
  · obtain ⟨⟨g, rfl⟩, r, rfl⟩ := h
    rw [show element (Verif.ElPh.asr c) (c.Rg g) (c.Rk r) x a b = (Verif.ElPh.asr c).data g x r a b from
      element_data (Verif.ElPh.asr c) hg hk g r x a b]
    simp only [element_data c hg hk]
    rfl
  · have h' : (¬∃ g, c.Rg g = R) ∨ ¬∃ r, c.Rk r = S := by tauto
    rw [element_none c R S h', show element (Verif.ElPh.asr c) R S x a b = 0 from element_none (Verif.ElPh.asr c) R S h' x a b]
    simp

/-- **C166**: the sum-rule correction preserves Hermiticity. -/
theorem C166_hermitian (c : Coupling (Fin nat × Fin 3) O) (hg : Function.Injective c.Rg) (hk : Function.Injective c.Rk) (hh : Hermitian c) :
    Hermitian (Verif.ElPh.asr c) := by
  classical
  intro R S x a b
  rw [element_asr c hg hk, element_asr c hg hk]
  have h1 := sum_transpose c hg hh (fun z => z) rfl S x.2 a b
  have h2 := sum_transpose c hg hh (fun z => ((‖z‖ : ℝ) : ℂ)) (by simp) S x.2 a b
  simp only [norm_star] at h2
  have h3 : ∑ g, ∑ na, ‖element c (c.Rg g) S (na, x.2) a b‖ = ∑ g, ∑ na, ‖element c (c.Rg g) (-S.1, -S.2.1, -S.2.2) (na, x.2) b a‖ := by
    exact_mod_cast h2
  rw [star_sub, star_mul', hh R S, star_sum]
  simp only [star_sum]
  rw [h1, ← h3, Complex.star_def, Complex.conj_ofReal, ← hh R S, norm_star]

/-- **C166**: the sum-rule correction does not change a coupling that fulfills the sum rule. -/
theorem C166_idempotent [DecidableEq O] (c : Coupling (Fin nat × Fin 3) O) : Verif.ElPh.asr (Verif.ElPh.asr c) = Verif.ElPh.asr c ∧
    (SumRule c → Verif.ElPh.asr c = c) := by
  have h : ∀ c : Coupling (Fin nat × Fin 3) O, SumRule c → Verif.ElPh.asr c = c := by
    intro c hc
    unfold Verif.ElPh.asr
    obtain ⟨ng, nk, Rg, Rk, data⟩ := c
    simp only [Coupling.mk.injEq, heq_eq_eq, true_and]
    funext R x r a b
    have := hc x.2 r a b
    simp only at this
    rw [this, mul_zero, sub_zero]
  exact ⟨h _ fun x r a b => Verif.ElPh.C45_elph c x r a b, h c⟩

end hermitian

/-! ### Long-range terms -/

section longRange
open Verif.Phon (Polar gList gVec keK zMass qMass factor dotFactor expFactor kList mem_box)

/-- **C166**: coupling to collective displacements after `asr`, with long-range terms. -/
theorem C166_long_range {O : Type} [DecidableEq O] (s : State (Fin nat × Fin 3) O) (f : (Fin 3 → ℝ) → Fin nat × Fin 3 → ℂ) (hf : s.lr = some f)
    (k : Fin 3 → ℝ) (x : Fin 3) (a b : O) :
    ∑ na, total s.asr (fun _ => 0) k (na, x) a b = if a = b then ∑ na, f (fun _ => 0) (na, x) else 0 := by
  unfold total
  rw [show s.asr.lr = some f from hf, Finset.sum_add_distrib]
  rw [show (∑ na, fourier s.asr.c (fun _ => 0) k (na, x) a b) = 0 from Verif.ElPh.C45_elph_acoustic s.c k x a b, zero_add]
  by_cases hab : a = b
  · simp [hab]
  · simp [hab]

/-- Two atoms of opposite charge in a cubic cell. -/
noncomputable def ions : Polar 2 where
  a := fun i x => if i = x then 1 else 0
  b := fun i x => if i = x then 1 else 0
  r := ![![0, 0, 0], ![1 / 20, 0, 0]]
  eps := fun x y => if x = y then 1 else 0
  Z := fun a x y => if x = y then (if a = 0 then 1 else -1) else 0
  Q := none
  M := fun _ => 1
  lr2d := false
  L := none
  perp := true
  divideMass := false
  alpha := 1

theorem ions_keK (K : Fin 3 → ℝ) : keK ions K = K 0 ^ 2 + K 1 ^ 2 + K 2 ^ 2 := by
  simp [keK, ions, Fin.sum_univ_three]
  ring

theorem ions_gVec (m : V3) : gVec ions m = ![2 * Real.pi * m.1, 2 * Real.pi * m.2.1, 2 * Real.pi * m.2.2] := by
  funext x
  fin_cases x <;> simp [gVec, ions]

theorem ions_scale : Verif.Phon.scale ions = 4 * (2 * Real.pi) ^ 2 := by
  simp [Verif.Phon.scale, ions, Verif.Phon.norm3, Fin.sum_univ_three]

theorem ions_mem (m : V3) (h : keK ions (gVec ions m) < Verif.Phon.scale ions * 28) : m.1 ^ 2 < 112 := by
  rw [ions_scale, ions_keK, ions_gVec] at h
  simp only [Matrix.cons_val_zero, Matrix.cons_val_one, Matrix.cons_val] at h
  have hp : (0 : ℝ) < (2 * Real.pi) ^ 2 := by positivity
  have h1 : (2 * Real.pi) ^ 2 * (m.1 : ℝ) ^ 2 < (2 * Real.pi) ^ 2 * 112 := by
    nlinarith [sq_nonneg (2 * Real.pi * (m.2.1 : ℝ)), sq_nonneg (2 * Real.pi * (m.2.2 : ℝ))]
  have h2 := lt_of_mul_lt_mul_left h1 hp.le
  exact_mod_cast h2

theorem ions_term (K : Fin 3 → ℝ) : ((factor ions K : ℂ) * (dotFactor ions (zMass ions) (qMass ions) K 0 0 * expFactor ions K 0) +
    (factor ions K : ℂ) * (dotFactor ions (zMass ions) (qMass ions) K 1 0 * expFactor ions K 1)).re =
      -(factor ions K * (K 0 * Real.sin (K 0 / 20))) := by
  have h0 : zMass ions = ions.Z := by
    funext a e u
    simp [zMass, ions]
  have h1 : qMass ions = none := rfl
  have e0 : expFactor ions K 0 = 1 := by simp [expFactor, ions, Fin.sum_univ_three]
  have e1 : expFactor ions K 1 = ((Real.cos (K 0 / 20) : ℝ) : ℂ) - ((Real.sin (K 0 / 20) : ℝ) : ℂ) * Complex.I := by
    have : (∑ x, K x * ions.r 1 x : ℝ) = K 0 / 20 := by
      simp [ions, Fin.sum_univ_three]
      ring
    rw [expFactor, this, show -Complex.I * ((K 0 / 20 : ℝ) : ℂ) = ((-(K 0 / 20) : ℝ) : ℂ) * Complex.I by push_cast; ring, Complex.exp_mul_I,
      ← Complex.ofReal_cos, ← Complex.ofReal_sin, Real.cos_neg, Real.sin_neg]
    push_cast
    ring
  have d0 : dotFactor ions ions.Z none K 0 0 = Complex.I * (K 0 : ℂ) := by
    simp [dotFactor, ions, Fin.sum_univ_three]
  have d1 : dotFactor ions ions.Z none K 1 0 = -(Complex.I * (K 0 : ℂ)) := by
    simp [dotFactor, ions, Fin.sum_univ_three]
  rw [h0, h1, e0, e1, d0, d1]
  generalize factor ions K = f
  generalize Real.cos (K 0 / 20) = c
  generalize Real.sin (K 0 / 20) = s
  simp

theorem ions_factor (K : Fin 3 → ℝ) (h : 0 < keK ions K) : 0 < factor ions K := by
  have : 0 < Verif.Phon.prefactor ions := by
    simp [Verif.Phon.prefactor, ions, Fin.sum_univ_three, Verif.Bravais.cross]
    positivity
  show 0 < Verif.Phon.prefactor ions * Real.exp (-keK ions K / Verif.Phon.scale ions) / keK ions K
  positivity

theorem ions_nonneg (m : V3) (h : m.1 ^ 2 < 112) : 0 ≤ gVec ions m 0 * Real.sin (gVec ions m 0 / 20) := by
  have hm : -10 ≤ m.1 ∧ m.1 ≤ 10 := by constructor <;> nlinarith
  rw [ions_gVec]
  simp only [Matrix.cons_val_zero]
  have hp := Real.pi_pos
  rcases le_total 0 m.1 with h0 | h0
  · have h1 : (0 : ℝ) ≤ m.1 := by exact_mod_cast h0
    have h2 : (m.1 : ℝ) ≤ 10 := by exact_mod_cast hm.2
    refine mul_nonneg (by positivity) (Real.sin_nonneg_of_nonneg_of_le_pi (by positivity) ?_)
    nlinarith
  · have h1 : (m.1 : ℝ) ≤ 0 := by exact_mod_cast h0
    have h2 : -10 ≤ (m.1 : ℝ) := by exact_mod_cast hm.1
    refine mul_nonneg_of_nonpos_of_nonpos (by nlinarith) (Real.sin_nonpos_of_nonpos_of_neg_pi_le (by nlinarith) ?_)
    nlinarith

/-- **C166** (violation): after the sum-rule correction, there is still coupling to collective displacements if there are long-range terms, even if
the Born charges add up to zero (two atoms in a cubic cell, default cutoff). -/
theorem C166_long_range_violated (s : State (Fin 2 × Fin 3) (Fin nb))
    (hs : s.lr = some (Verif.ElPh.gLr ions (gList ions 28 false) (zMass ions) (qMass ions))) (k : Fin 3 → ℝ) (a : Fin nb) :
    (∀ x y, ∑ na, ions.Z na x y = 0) ∧ ∑ na, total s.asr (fun _ => 0) k (na, 0) a a ≠ 0 := by
  refine ⟨fun x y => by by_cases h : x = y <;> simp [ions, h], ?_⟩
  rw [C166_long_range s _ hs, if_pos rfl, Fin.sum_univ_two, Verif.ElPh.gLr_eq, Verif.ElPh.gLr_eq, ← List.sum_map_add]
  intro h
  have hre : ∀ l : List (Fin 3 → ℝ), ∀ F : (Fin 3 → ℝ) → ℂ, (l.map F).sum.re = (l.map fun K => (F K).re).sum := by
    intro l F
    induction l with
    | nil => rfl
    | cons K l ih => simp [ih]
  have h' := congrArg Complex.re h
  rw [hre] at h'
  simp only [ions_term, Complex.zero_re] at h'
  have hmem : ∀ K ∈ kList ions (gList ions 28 false) (fun _ => 0), 0 < keK ions K ∧ 0 ≤ K 0 * Real.sin (K 0 / 20) := by
    intro K hK
    unfold kList at hK
    rw [List.mem_filter, List.mem_map] at hK
    obtain ⟨⟨G, hG, hGK⟩, hpos⟩ := hK
    have hpos := of_decide_eq_true hpos
    unfold gList at hG
    rw [List.mem_map] at hG
    obtain ⟨m, hm, rfl⟩ := hG
    rw [List.mem_filter] at hm
    have hKm : K = gVec ions m := by
      rw [← hGK]
      funext x
      simp
    refine ⟨lt_trans (by norm_num) hpos, ?_⟩
    rw [hKm]
    exact ions_nonneg m (ions_mem m (of_decide_eq_true hm.2))
  have hone : gVec ions (1, 0, 0) ∈ kList ions (gList ions 28 false) (fun _ => 0) := by
    have hk : keK ions (gVec ions (1, 0, 0)) = (2 * Real.pi) ^ 2 := by
      rw [ions_keK, ions_gVec]
      simp
    have hp := Real.two_le_pi
    unfold kList
    rw [List.mem_filter, List.mem_map]
    refine ⟨⟨gVec ions (1, 0, 0), ?_, by funext x; simp⟩, decide_eq_true ?_⟩
    · unfold gList
      rw [List.mem_map]
      refine ⟨(1, 0, 0), ?_, rfl⟩
      rw [List.mem_filter]
      refine ⟨?_, decide_eq_true ?_⟩
      · rw [mem_box]
        have : 1 ≤ Verif.Phon.nr ions 28 false 0 := by
          unfold Verif.Phon.nr
          rw [if_neg (by decide)]
          exact Nat.le_add_right 1 _
        refine ⟨⟨?_, ?_⟩, ⟨?_, ?_⟩, ?_, ?_⟩ <;> dsimp only <;> omega
      · rw [hk, ions_scale]
        nlinarith
    · rw [hk]
      norm_num
      nlinarith
  have hle := List.single_le_sum (l := (kList ions (gList ions 28 false) (fun _ => 0)).map fun K => factor ions K * (K 0 * Real.sin (K 0 / 20)))
    (fun y hy => by
      rw [List.mem_map] at hy
      obtain ⟨K, hK, rfl⟩ := hy
      exact mul_nonneg (ions_factor K (hmem K hK).1).le (hmem K hK).2) _ (List.mem_map_of_mem hone)
  have hneg : ∀ l : List (Fin 3 → ℝ), ∀ F : (Fin 3 → ℝ) → ℝ, (l.map fun K => -F K).sum = -(l.map F).sum := by
    intro l F
    induction l with
    | nil => simp
    | cons K l ih =>
      simp [ih]
      ring
  rw [hneg _ fun K => factor ions K * (K 0 * Real.sin (K 0 / 20))] at h'
  have hpos : 0 < factor ions (gVec ions (1, 0, 0)) * (gVec ions (1, 0, 0) 0 * Real.sin (gVec ions (1, 0, 0) 0 / 20)) := by
    refine mul_pos (ions_factor _ (hmem _ hone).1) ?_
    rw [ions_gVec]
    have hp := Real.pi_pos
    simp only [Matrix.cons_val_zero, Int.cast_one, mul_one]
    exact mul_pos (by positivity) (Real.sin_pos_of_pos_of_lt_pi (by positivity) (by linarith))
  linarith

end longRange

/-! ### Examples -/

section examples

/-- Translational invariance of the dimer. -/
theorem dimer_invariant : Invariant dimer.C0 dimer.d0 fun _ => 0 where
  herm := fun x y => by
    simp only [dimer, and_comm (a := x.2 = 0), eq_comm (a := x.1)]
    split
    · split <;> simp
    · simp
  springs := fun x ⟨nb, y⟩ => by
    rw [Fin.sum_univ_two]
    fin_cases nb <;> fin_cases x <;> fin_cases y <;> simp [dimer]
  coupling := fun x k => by
    rw [Fin.sum_univ_two]
    fin_cases x <;> simp [dimer]

theorem dimer_init (unscreen : Bool) : Externals Verif.Occ.gauss (fun A : Matrix (Fin 1) (Fin 1) ℂ => (fun _ => (A 0 0).re, 1))
    (fun e => e (0, 0, 0) 0) (Driver.init (fun A : Matrix (Fin 1) (Fin 1) ℂ => (fun _ => (A 0 0).re, 1)) (fun e => e (0, 0, 0) 0) 1
      Verif.Occ.gauss Verif.Occ.gaussDelta unscreen 1 1 (fun _ _ => 0) dimer.H0 dimer.C0 dimer.d0) := by
  cases unscreen <;> exact ⟨dimer_externals.eig, dimer_externals.unitary, dimer_externals.number, dimer_externals.hamiltonian, dimer_externals.coupling⟩

/-- Hypotheses of `C166_simulation`: dimer with and without unscreening. -/
example (unscreen : Bool) := C166_simulation 1 zero_le_one Verif.Occ.gaussDelta Verif.Occ.gaussEntropy
  (fun x => by unfold Verif.Occ.gaussDelta; positivity) unscreen 1 1 one_pos (fun _ _ => 0) rfl dimer.H0 dimer.C0 dimer.d0 (fun _ => 0)
  dimer_invariant (dimer_init unscreen)

/-- Hypotheses of `C166_gradient`: stretching of the dimer. -/
example (unscreen : Bool) (r0 : X 2 → ℝ) (t : ℝ) := C166_gradient 1 zero_le_one Verif.Occ.gaussDelta Verif.Occ.gaussEntropy
  (fun x => by unfold Verif.Occ.gaussDelta; positivity) Verif.Occ.C35_gauss.anti (fun x => (Verif.Occ.C36_gauss x).1) Verif.Occ.C37_gauss
  unscreen 1 1 one_pos (fun _ _ => 0) rfl dimer.H0 dimer.C0 dimer.d0 (fun _ => 0) dimer_invariant (dimer_init unscreen) r0
  (fun t x => r0 x + stretch t x) (stretch 1) t (by
    obtain ⟨e, U, mu, e', U', mu', hp⟩ := dimer_path (fun t => t) 1 t (hasDerivAt_id t) r0
    refine ⟨e, U, mu, e', U', mu', ⟨fun t => ?_, hp.du, hp.de, hp.dU, hp.dmu⟩⟩
    have := hp.diag t
    cases unscreen <;> exact ⟨this.eig, this.unitary, this.number⟩)

/-- Chain of atoms. -/
noncomputable def chain : Blocks (Fin 1 × Fin 3) ℝ :=
  [((0, 0, 0), fun x y => if x = y then 2 else 0), ((1, 0, 0), fun x y => if x = y then -1 else 0), ((-1, 0, 0), fun x y => if x = y then -1 else 0)]

theorem chain_symmetric : Symmetric chain := by
  have h : ∀ v : ℝ, (fun x y : Fin 1 × Fin 3 => if y = x then v else 0) = fun x y => if x = y then v else 0 := by
    intro v
    funext x y
    simp only [eq_comm]
  unfold Symmetric chain
  simp only [List.map_cons, List.map_nil, neg_zero, neg_neg, h]
  exact (List.Perm.swap _ _ _).cons _

theorem chain_sum (a : Fin 1 × Fin 3) (y : Fin 3) : ∑ na, dynMat chain (fun _ => 0) a (na, y) = 0 := by
  simp only [dynMat, Verif.Fourier.bloch, chain, List.map_cons, List.map_nil, List.sum_cons, List.sum_nil, phase_zero]
  rw [Fin.sum_univ_one]
  by_cases h : a = (0, y)
  · simp [h]
    norm_num
  · simp [h]

/-- Coupling that does not fulfill the sum rule: an electron on an atom couples to this atom and less to its neighbors. -/
noncomputable def raw : Coupling (Fin 1 × Fin 3) (Fin 1) where
  ng := 3
  nk := 1
  Rg := ![(0, 0, 0), (1, 0, 0), (-1, 0, 0)]
  Rk := fun _ => (0, 0, 0)
  data := fun g _ _ _ _ => if g = 0 then 3 else 1

theorem raw_injective : Function.Injective raw.Rg ∧ Function.Injective raw.Rk := by
  constructor
  · have : ∀ a b : Fin 3, (![(0, 0, 0), (1, 0, 0), (-1, 0, 0)] : Fin 3 → V3) a =
        (![(0, 0, 0), (1, 0, 0), (-1, 0, 0)] : Fin 3 → V3) b → a = b := by decide
    exact this
  · intro a b _
    exact Subsingleton.elim (α := Fin 1) a b

/-- Hypotheses of `C166_supercell`, `C166_springs` and `C166_models`: supercell of a chain with two atoms. -/
example : ∃ s m c', Verif.Lattice.supercell (2, 0, 0) (0, 1, 0) (0, 0, 1) = some s ∧ s.cells.length = 2 ∧ Verif.TB.supercell s chain = some m ∧
    Verif.ElPh.supercell s (Verif.ElPh.asr raw) = some c' ∧ SumRule (Verif.ElPh.asr raw) ∧ ¬SumRule raw := by
  have hD : detSpec (2, 0, 0) (0, 1, 0) (0, 0, 1) ≠ 0 := by decide
  have hs : ∃ s, Verif.Lattice.supercell (2, 0, 0) (0, 1, 0) (0, 0, 1) = some s ∧ s.cells.length = 2 := ⟨_, rfl, by decide⟩
  obtain ⟨s, hs, hl⟩ := hs
  obtain ⟨⟨c', h⟩, -⟩ := Verif.ElPh.C78_defined _ _ _ hD s hs (Verif.ElPh.asr raw)
  obtain ⟨-, m, -, hm, -⟩ := Verif.TB.C42_sparse_dense _ _ _ hD s hs chain (by simp [chain])
  refine ⟨s, m, c', hs, hl, hm, h, fun x r a b => Verif.ElPh.C45_elph raw x r a b, fun hn => ?_⟩
  have := hn 0 (0 : Fin 1) 0 0
  change ∑ R : Fin 3, ∑ na : Fin 1, (if R = 0 then (3 : ℂ) else 1) = 0 at this
  simp [Fin.sum_univ_three] at this
  norm_num at this

/-- Hypotheses of `C166_hermitian`. -/
example : Hermitian raw := by
  intro R S x a b
  by_cases hS : S = (0, 0, 0)
  · subst hS
    simp only [neg_zero, sub_zero]
    unfold element
    simp only [star_sum]
    refine Finset.sum_congr rfl fun g _ => Finset.sum_congr rfl fun r _ => ?_
    split
    · change star (if (show Fin 3 from g) = 0 then (3 : ℂ) else 1) = if (show Fin 3 from g) = 0 then (3 : ℂ) else 1
      split <;> simp
    · simp
  · rw [element_none raw R S (Or.inr fun ⟨r, hr⟩ => hS hr.symm), element_none raw _ _ (Or.inr ?_), star_zero]
    rintro ⟨r, hr⟩
    refine hS ?_
    change ((0 : ℤ), (0 : ℤ), (0 : ℤ)) = _ at hr
    simp only [Prod.mk.injEq] at hr
    obtain ⟨h1, h2, h3⟩ := hr
    exact Prod.ext (by simpa using h1.symm) (Prod.ext (by simpa using h2.symm) (by simpa using h3.symm))

end examples

end Verif.MD.Translation
