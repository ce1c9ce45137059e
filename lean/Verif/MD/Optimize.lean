import Verif.Diag.Derivatives
import Verif.MD.Translation

/-!
# Optimization of structures: state and memory of the driver, `elphmod/md.py` 174-313, 760-798, 882-904 (C167)

`free_energy` keeps the array it is given, from which the centre of mass is removed in place. `jacobian` and `hessian` do not use their arguments but
the state left by previous calls. Does an optimization routine nevertheless see a function and its derivatives?
-/

namespace Verif.MD.Optimize

open Matrix
open Verif.Diag

variable {n1 n2 n3 nb nat nq : Nat}

/-! ### Model -/

/-- Arrays with displacements in memory and the driver; its attribute `u` is the array at address `p` (the field `u` of `d` is not used). -/
structure Memory (n1 n2 n3 nb nat nq : Nat) where
  heap : Nat → X nat → ℝ
  next : Nat
  p : Nat
  d : Driver n1 n2 n3 nb nat nq

/-- Calls of the user or of an optimization routine. -/
inductive Op (nat : Nat) where
  /-- allocation of an array with given content -/
  | new (v : X nat → ℝ)
  /-- change of an array in place -/
  | write (a : Nat) (v : X nat → ℝ)
  /-- `driver.free_energy(u)` -/
  | freeEnergy (a : Option Nat)
  /-- `driver.jacobian()` or `driver.jacobian(x)` for any `x` -/
  | jacobian
  /-- `driver.hessian()` or `driver.hessian(x)` for any `x` -/
  | hessian
  /-- `driver.diagonalize()` -/
  | diagonalize
  /-- `driver.center_mass()` -/
  | centerMass
  /-- `driver.random_displacements(amplitude)` with the random numbers drawn by the first process -/
  | random (amplitude : ℝ) (rand : X nat → ℝ)
  /-- `driver.from_xyz(xyz)`, where some of the displacements are given in the file -/
  | fromXyz (v : X nat → Option ℝ)
  /-- `driver(a, r)` -/
  | call (r : X nat → ℝ)

/-- What is returned. -/
inductive Result (nat : Nat) where
  | none
  | address (a : Nat)
  | energy (E : ℝ)
  | forces (F : X nat → ℝ)
  | hessian (C : X nat → X nat → ℝ)
  | call (r : ℝ × (X nat → ℝ) × Matrix (Fin 3) (Fin 3) ℝ)

/-- All attributes of the driver. -/
def Memory.view (m : Memory n1 n2 n3 nb nat nq) : Driver n1 n2 n3 nb nat nq := { m.d with u := m.heap m.p }

/-- Change of an array in place. -/
def Memory.write (m : Memory n1 n2 n3 nb nat nq) (a : Nat) (v : X nat → ℝ) : Memory n1 n2 n3 nb nat nq :=
  { m with heap := fun b => if b = a then v else m.heap b }

/-- Allocation of an array. -/
def Memory.new (m : Memory n1 n2 n3 nb nat nq) (v : X nat → ℝ) : Memory n1 n2 n3 nb nat nq :=
  { m.write m.next v with next := m.next + 1 }

section model
variable (eigh : Matrix (Fin nb) (Fin nb) ℂ → (Fin nb → ℝ) × Matrix (Fin nb) (Fin nb) ℂ) (level : (Mesh n1 n2 n3 → Fin nb → ℝ) → ℝ)
  (occ delta entropy : ℝ → ℝ) (eps : ℝ) (r0 : X nat → ℝ)

/-- `elphmod/md.py` 188-192 (`center_mass`): `self.u -= ...` changes the array in place. -/
noncomputable def Memory.centerMass (m : Memory n1 n2 n3 nb nat nq) : Memory n1 n2 n3 nb nat nq := m.write m.p (center (m.heap m.p))

/-- `elphmod/md.py` 223-235 (`diagonalize`). -/
noncomputable def Memory.diagonalize (m : Memory n1 n2 n3 nb nat nq) : Memory n1 n2 n3 nb nat nq :=
  let m := m.centerMass
  let e := fun k => (eigh (m.view.H k)).1
  { m with d := { m.d with U := fun k => (eigh (m.view.H k)).2, mu := level e, e := fun k n => e k n - level e } }

variable [NeZero n1] [NeZero n2] [NeZero n3]

/-- One call on the first (`root`) or another process. `free_energy`: `elphmod/md.py` 237-276; `jacobian`: 278-313; `hessian`: 315-442 (at `q = 0`,
not sparse); `random_displacements`: 174-186, where `Bcast` fills the existing array except on the first process, on which a new array has been
bound; `from_xyz`: 760-798, which changes the array in place; `__call__`: 882-904, which binds a new array. -/
noncomputable def step (root : Bool) (m : Memory n1 n2 n3 nb nat nq) : Op nat → Memory n1 n2 n3 nb nat nq × Result nat
  | .new v => (m.new v, .address m.next)
  | .write a v => (m.write a v, .none)
  | .freeEnergy a =>
    let m := match a with
      | some a => { m with p := a }
      | none => m
    let m := m.diagonalize eigh level
    (m, .energy (m.view.freeEnergy occ entropy))
  | .jacobian => (m, .forces fun x => m.view.jacobian occ x)
  | .hessian => (m, .hessian fun x y => m.view.hessianGamma eps occ delta x y)
  | .diagonalize => (m.diagonalize eigh level, .none)
  | .centerMass => (m.centerMass, .none)
  | .random amplitude rand =>
    if root then (({ m.new (fun x => amplitude * (1 - 2 * rand x)) with p := m.next } : Memory n1 n2 n3 nb nat nq).centerMass, .none)
    else (m.write m.p (randomDisplacements amplitude rand), .none)
  | .fromXyz v => (m.write m.p fun x => (v x).getD (m.heap m.p x), .none)
  | .call r =>
    let m := { m.new (fun x => r x - r0 x) with p := m.next }
    let m := m.diagonalize eigh level
    (m, .call (0.5 * m.view.freeEnergy occ entropy, fun x => -0.5 * m.view.jacobian occ x, 0))

/-- Sequence of calls: final state and all results. -/
noncomputable def run (root : Bool) : Memory n1 n2 n3 nb nat nq → List (Op nat) → Memory n1 n2 n3 nb nat nq × List (Result nat)
  | m, [] => (m, [])
  | m, o :: os =>
    let r := step eigh level occ delta entropy eps r0 root m o
    let rs := run root r.1 os
    (rs.1, r.2 :: rs.2)

end model

/-! ### Specification -/

section spec
variable (eigh : Matrix (Fin nb) (Fin nb) ℂ → (Fin nb → ℝ) × Matrix (Fin nb) (Fin nb) ℂ) (level : (Mesh n1 n2 n3 → Fin nb → ℝ) → ℝ)
  (occ delta entropy : ℝ → ℝ) (eps : ℝ)

/-- Specification: the driver after diagonalization for given displacements, a function of them and the parameters of the simulation only. -/
noncomputable def solved (s : Driver n1 n2 n3 nb nat nq) (v : X nat → ℝ) : Driver n1 n2 n3 nb nat nq :=
  ({ s with u := v, e := fun _ _ => 0, U := fun _ => 0, mu := 0 } : Driver n1 n2 n3 nb nat nq).diagonalize eigh level

/-- Specification: free energy as a function of the displacements. -/
noncomputable def E (s : Driver n1 n2 n3 nb nat nq) (v : X nat → ℝ) : ℝ := (solved eigh level s v).freeEnergy occ entropy

/-- Specification: its derivative. -/
noncomputable def G (s : Driver n1 n2 n3 nb nat nq) (v : X nat → ℝ) (x : X nat) : ℝ := (solved eigh level s v).jacobian occ x

/-- Specification: its second derivative. -/
noncomputable def H [NeZero n1] [NeZero n2] [NeZero n3] (s : Driver n1 n2 n3 nb nat nq) (v : X nat → ℝ) (x y : X nat) : ℝ :=
  (solved eigh level s v).hessianGamma eps occ delta x y

/-- Specification: parameters of the simulation. -/
def params (s : Driver n1 n2 n3 nb nat nq) : Driver n1 n2 n3 nb nat nq :=
  { s with u := fun _ => 0, e := fun _ _ => 0, U := fun _ => 0, mu := 0 }

/-- Specification: the electronic state belongs to the displacements. -/
def Current (m : Memory n1 n2 n3 nb nat nq) : Prop := m.view = solved eigh level m.d (m.heap m.p)

/-- Specification: calls which do not change displacements in the array `p` of the driver. -/
def Harmless (p : Nat) : Op nat → Prop
  | .new _ | .jacobian | .hessian | .diagonalize | .centerMass => True
  | .write a _ => a ≠ p
  | .freeEnergy a => a = none ∨ a = some p
  | .random _ _ | .fromXyz _ | .call _ => False

end spec

/-! ### Results -/

section results
variable {eigh : Matrix (Fin nb) (Fin nb) ℂ → (Fin nb → ℝ) × Matrix (Fin nb) (Fin nb) ℂ} {level : (Mesh n1 n2 n3 → Fin nb → ℝ) → ℝ}
  {occ delta entropy : ℝ → ℝ} {eps : ℝ} {r0 : X nat → ℝ}

theorem solved_params (s : Driver n1 n2 n3 nb nat nq) (v : X nat → ℝ) : solved eigh level (params s) v = solved eigh level s v := rfl

theorem solved_center (s : Driver n1 n2 n3 nb nat nq) (v : X nat → ℝ) : solved eigh level s (center v) = solved eigh level s v := by
  unfold solved Driver.diagonalize
  simp only [C56_idempotent]

theorem diagonalize_view (m : Memory n1 n2 n3 nb nat nq) :
    (m.diagonalize eigh level).view = solved eigh level m.d (m.heap m.p) := by
  unfold Memory.diagonalize Memory.view Memory.centerMass Memory.write solved Driver.diagonalize
  simp only [if_true]
  rfl

theorem diagonalize_heap (m : Memory n1 n2 n3 nb nat nq) (b : Nat) :
    (m.diagonalize eigh level).heap b = if b = m.p then center (m.heap m.p) else m.heap b := rfl

theorem diagonalize_params (m : Memory n1 n2 n3 nb nat nq) : params (m.diagonalize eigh level).d = params m.d := rfl

theorem diagonalize_current (m : Memory n1 n2 n3 nb nat nq) : Current eigh level (m.diagonalize eigh level) := by
  unfold Current
  rw [diagonalize_view, diagonalize_heap, ← solved_params (m.diagonalize eigh level).d, diagonalize_params, solved_params]
  rw [if_pos (show (m.diagonalize eigh level).p = m.p from rfl), solved_center]

theorem current_center (m : Memory n1 n2 n3 nb nat nq) (h : Current eigh level m) : center (m.heap m.p) = m.heap m.p := by
  have := congrArg Driver.u h
  exact this.symm

variable [NeZero n1] [NeZero n2] [NeZero n3]

/-- **C167**: no call changes the parameters of the simulation. -/
theorem C167_params (root : Bool) (m : Memory n1 n2 n3 nb nat nq) (os : List (Op nat)) :
    params (run eigh level occ delta entropy eps r0 root m os).1.d = params m.d := by
  induction os generalizing m with
  | nil => rfl
  | cons o os ih =>
    refine (ih _).trans ?_
    cases o with
    | freeEnergy a => cases a <;> rfl
    | random amplitude rand => cases root <;> rfl
    | _ => rfl

/-- **C167**: whatever has happened before, `free_energy` returns the free energy of the displacements in the given array, from which the collective
displacement is removed; no other array is changed. The state is current afterwards. -/
theorem C167_free_energy (root : Bool) (m : Memory n1 n2 n3 nb nat nq) (a : Nat) :
    (step eigh level occ delta entropy eps r0 root m (.freeEnergy (some a))).2 = .energy (E eigh level occ entropy m.d (m.heap a)) ∧
    Current eigh level (step eigh level occ delta entropy eps r0 root m (.freeEnergy (some a))).1 ∧
    (step eigh level occ delta entropy eps r0 root m (.freeEnergy (some a))).1.p = a ∧
    ∀ b, (step eigh level occ delta entropy eps r0 root m (.freeEnergy (some a))).1.heap b = if b = a then center (m.heap a) else m.heap b := by
  refine ⟨?_, diagonalize_current _, rfl, fun b => rfl⟩
  simp only [step]
  rw [diagonalize_view]
  rfl

theorem harmless_step (root : Bool) (m : Memory n1 n2 n3 nb nat nq) (o : Op nat) (hp : m.p < m.next) (hc : Current eigh level m) (ho : Harmless m.p o) :
    (step eigh level occ delta entropy eps r0 root m o).1.view = m.view ∧ (step eigh level occ delta entropy eps r0 root m o).1.p = m.p ∧
      m.p < (step eigh level occ delta entropy eps r0 root m o).1.next := by
  have hd : ∀ m' : Memory n1 n2 n3 nb nat nq, m' = m → (m'.diagonalize eigh level).view = m.view := by
    rintro m' rfl
    rw [diagonalize_view]
    exact hc.symm
  cases o with
  | new v =>
    refine ⟨?_, rfl, Nat.lt_succ_of_lt hp⟩
    simp only [step, Memory.view, Memory.new, Memory.write]
    rw [if_neg hp.ne]
  | write a v =>
    refine ⟨?_, rfl, hp⟩
    simp only [step, Memory.view, Memory.write]
    rw [if_neg (Ne.symm ho)]
  | freeEnergy a =>
    rcases ho with rfl | rfl
    · exact ⟨hd m rfl, rfl, hp⟩
    · exact ⟨hd m rfl, rfl, hp⟩
  | jacobian => exact ⟨rfl, rfl, hp⟩
  | hessian => exact ⟨rfl, rfl, hp⟩
  | diagonalize => exact ⟨hd m rfl, rfl, hp⟩
  | centerMass =>
    refine ⟨?_, rfl, hp⟩
    simp only [step, Memory.centerMass, Memory.view, Memory.write]
    rw [if_pos trivial, current_center m hc]
  | random amplitude rand => exact ho.elim
  | fromXyz v => exact ho.elim
  | call r => exact ho.elim

/-- **C167**: if the state is current (e.g., after `free_energy`), forces and force constants are those of the displacements of the driver, no matter
what else has been done, provided that the array has not been changed. -/
theorem C167_query (root : Bool) (m : Memory n1 n2 n3 nb nat nq) (hp : m.p < m.next) (hc : Current eigh level m) (os : List (Op nat))
    (ho : ∀ o ∈ os, Harmless m.p o) :
    (step eigh level occ delta entropy eps r0 root (run eigh level occ delta entropy eps r0 root m os).1 .jacobian).2 =
      .forces (G eigh level occ m.d (m.heap m.p)) ∧
    (step eigh level occ delta entropy eps r0 root (run eigh level occ delta entropy eps r0 root m os).1 .hessian).2 =
      .hessian (H eigh level occ delta eps m.d (m.heap m.p)) := by
  have key : (run eigh level occ delta entropy eps r0 root m os).1.view = m.view := by
    induction os generalizing m with
    | nil => rfl
    | cons o os ih =>
      obtain ⟨h1, h2, h3⟩ := harmless_step (occ := occ) (delta := delta) (entropy := entropy) (eps := eps) (r0 := r0) root m o hp hc
        (ho o List.mem_cons_self)
      refine (ih _ (by rw [h2]; exact h3) ?_ ?_).trans h1
      · unfold Current
        have e1 := congrArg Driver.u h1
        have e2 := congrArg params h1
        rw [h1, hc, ← solved_params m.d, ← solved_params (step _ _ _ _ _ _ _ _ _ _).1.d]
        exact congrArg₂ (solved eigh level) e2.symm e1.symm
      · intro o' ho'
        rw [h2]
        exact ho o' (List.mem_cons_of_mem _ ho')
  constructor
  · simp only [step]
    rw [key, hc]
    rfl
  · simp only [step]
    rw [key, hc]
    rfl

/-! ### Optimization routines -/

/-- Energies and forces seen so far. -/
abbrev Transcript (nat : Nat) := List (ℝ × (X nat → ℝ))

def Result.getE : Result nat → ℝ
  | .energy E => E
  | _ => 0

def Result.getF : Result nat → X nat → ℝ
  | .forces F => F
  | _ => fun _ => 0

/-- Specification: optimization of a function with the strategy `x`, which chooses the next point from what has been seen so far. -/
noncomputable def pure (f : (X nat → ℝ) → ℝ × (X nat → ℝ)) (x : Transcript nat → X nat → ℝ) : Nat → Transcript nat → Transcript nat
  | 0, tr => tr
  | n + 1, tr => pure f x n (tr ++ [f (x tr)])

/-- Specification: optimization with steps `dx`. -/
noncomputable def pureSteps (f : (X nat → ℝ) → ℝ × (X nat → ℝ)) (dx : Transcript nat → X nat → ℝ) : Nat → (X nat → ℝ) → Transcript nat → Transcript nat
  | 0, _, tr => tr
  | n + 1, v, tr => pureSteps f dx n (fun i => v i + dx tr i) (tr ++ [f fun i => v i + dx tr i])

variable (eigh level occ delta entropy eps r0) in
/-- Optimization routine that hands over copies (as SciPy does), first to `free_energy` and then to `jacobian`. -/
noncomputable def copies (root : Bool) (x : Transcript nat → X nat → ℝ) : Nat → Memory n1 n2 n3 nb nat nq → Transcript nat →
    Memory n1 n2 n3 nb nat nq × Transcript nat
  | 0, m, tr => (m, tr)
  | n + 1, m, tr =>
    let m1 := (step eigh level occ delta entropy eps r0 root m (.new (x tr))).1
    let r2 := step eigh level occ delta entropy eps r0 root m1 (.freeEnergy (some m.next))
    let m3 := (step eigh level occ delta entropy eps r0 root r2.1 (.new (x tr))).1
    let r4 := step eigh level occ delta entropy eps r0 root m3 .jacobian
    copies root x n r4.1 (tr ++ [(r2.2.getE, r4.2.getF)])

variable (eigh level occ delta entropy eps r0) in
/-- Optimization routine that works in place on a single array, which it hands over to `free_energy`. -/
noncomputable def inplace (root : Bool) (a : Nat) (dx : Transcript nat → X nat → ℝ) : Nat → Memory n1 n2 n3 nb nat nq → Transcript nat →
    Memory n1 n2 n3 nb nat nq × Transcript nat
  | 0, m, tr => (m, tr)
  | n + 1, m, tr =>
    let m1 := (step eigh level occ delta entropy eps r0 root m (.write a fun i => m.heap a i + dx tr i)).1
    let r2 := step eigh level occ delta entropy eps r0 root m1 (.freeEnergy (some a))
    let r3 := step eigh level occ delta entropy eps r0 root r2.1 .jacobian
    inplace root a dx n r3.1 (tr ++ [(r2.2.getE, r3.2.getF)])

/-- **C167**: every optimization routine that hands over copies sees free energy and its derivative as functions of the displacements, whatever has
happened before. Arrays of the user are not changed. -/
theorem C167_copies (root : Bool) (x : Transcript nat → X nat → ℝ) (n : Nat) (m : Memory n1 n2 n3 nb nat nq) (tr : Transcript nat) :
    (copies eigh level occ delta entropy eps r0 root x n m tr).2 =
      pure (fun v => (E eigh level occ entropy m.d v, G eigh level occ m.d v)) x n tr ∧
    ∀ b < m.next, (copies eigh level occ delta entropy eps r0 root x n m tr).1.heap b = m.heap b := by
  induction n generalizing m tr with
  | zero => exact ⟨rfl, fun _ _ => rfl⟩
  | succ n ih =>
    simp only [copies, pure]
    set m1 := (step eigh level occ delta entropy eps r0 root m (.new (x tr))).1 with hm1
    set r2 := step eigh level occ delta entropy eps r0 root m1 (.freeEnergy (some m.next)) with hr2
    set m3 := (step eigh level occ delta entropy eps r0 root r2.1 (.new (x tr))).1 with hm3
    have hx : m1.heap m.next = x tr := if_pos rfl
    obtain ⟨h1, h2, h3, h4⟩ := C167_free_energy (eigh := eigh) (level := level) (occ := occ) (delta := delta) (entropy := entropy) (eps := eps)
      (r0 := r0) root m1 m.next
    rw [← hr2] at h1 h2 h3 h4
    have hp : r2.1.p < r2.1.next := by
      rw [h3]
      exact Nat.lt_succ_self _
    have hq := (C167_query (occ := occ) (delta := delta) (entropy := entropy) (eps := eps) (r0 := r0) root r2.1 hp h2 [.new (x tr)]
      (fun o ho => by
        rw [List.mem_singleton] at ho
        subst ho
        trivial)).1
    change (step eigh level occ delta entropy eps r0 root m3 .jacobian).2 = _ at hq
    have hd : params r2.1.d = params m.d := rfl
    have hu : r2.1.heap r2.1.p = center (x tr) := by
      rw [h4, h3, if_pos rfl, hx]
    have hG : G eigh level occ r2.1.d (r2.1.heap r2.1.p) = G eigh level occ m.d (x tr) := by
      funext i
      unfold G
      rw [hu, solved_center, ← solved_params, hd, solved_params]
    have hE : E eigh level occ entropy m1.d (m1.heap m.next) = E eigh level occ entropy m.d (x tr) := by rw [hx]; rfl
    rw [hG] at hq
    rw [hE] at h1
    obtain ⟨i1, i2⟩ := ih (step eigh level occ delta entropy eps r0 root m3 .jacobian).1
      (tr ++ [(r2.2.getE, (step eigh level occ delta entropy eps r0 root m3 .jacobian).2.getF)])
    have hf : (fun v => (E eigh level occ entropy (step eigh level occ delta entropy eps r0 root m3 .jacobian).1.d v,
        G eigh level occ (step eigh level occ delta entropy eps r0 root m3 .jacobian).1.d v)) =
        fun v => (E eigh level occ entropy m.d v, G eigh level occ m.d v) := rfl
    constructor
    · rw [i1, hf, hq, h1]
      rfl
    · intro b hb
      have hn : m3.next = m.next + 2 := rfl
      rw [i2 b (by show b < m3.next; omega)]
      show (if b = r2.1.next then x tr else r2.1.heap b) = _
      have hn2 : r2.1.next = m.next + 1 := rfl
      rw [if_neg (by omega), h4, if_neg (by omega)]
      exact if_neg (by omega)

/-- **C167**: the same is true for every routine that works in place, even though collective displacements are removed from its array. -/
theorem C167_inplace (root : Bool) (a : Nat) (dx : Transcript nat → X nat → ℝ) (n : Nat) (m : Memory n1 n2 n3 nb nat nq) (tr : Transcript nat)
    (ha : a < m.next) :
    (inplace eigh level occ delta entropy eps r0 root a dx n m tr).2 =
      pureSteps (fun v => (E eigh level occ entropy m.d v, G eigh level occ m.d v)) dx n (m.heap a) tr := by
  have center_add : ∀ v v' w : X nat → ℝ, center v = center v' → center (fun i => v i + w i) = center fun i => v' i + w i := by
    intro v v' w h
    funext i
    have := congrFun h i
    unfold center at this ⊢
    simp only [Finset.sum_add_distrib]
    rw [add_div, add_div]
    linarith
  have gen : ∀ (n : Nat) (m : Memory n1 n2 n3 nb nat nq) (tr : Transcript nat) (v : X nat → ℝ), a < m.next → center (m.heap a) = center v →
      (inplace eigh level occ delta entropy eps r0 root a dx n m tr).2 =
        pureSteps (fun v => (E eigh level occ entropy m.d v, G eigh level occ m.d v)) dx n v tr := by
    intro n
    induction n with
    | zero => intro m tr v _ _; rfl
    | succ n ih =>
      intro m tr v ha hv
      simp only [inplace, pureSteps]
      set m1 := (step eigh level occ delta entropy eps r0 root m (.write a fun i => m.heap a i + dx tr i)).1 with hm1
      set r2 := step eigh level occ delta entropy eps r0 root m1 (.freeEnergy (some a)) with hr2
      have hx : m1.heap a = fun i => m.heap a i + dx tr i := if_pos rfl
      have hw := center_add _ _ (dx tr) hv
      obtain ⟨h1, h2, h3, h4⟩ := C167_free_energy (eigh := eigh) (level := level) (occ := occ) (delta := delta) (entropy := entropy) (eps := eps)
        (r0 := r0) root m1 a
      rw [← hr2] at h1 h2 h3 h4
      have hp : r2.1.p < r2.1.next := by
        rw [h3]
        exact ha
      have hq := (C167_query (occ := occ) (delta := delta) (entropy := entropy) (eps := eps) (r0 := r0) root r2.1 hp h2 [] (by simp)).1
      change (step eigh level occ delta entropy eps r0 root r2.1 .jacobian).2 = _ at hq
      have hu : r2.1.heap r2.1.p = center fun i => v i + dx tr i := by
        rw [h4, h3, if_pos rfl, hx, hw]
      have hd : params r2.1.d = params m.d := rfl
      have hG : G eigh level occ r2.1.d (r2.1.heap r2.1.p) = G eigh level occ m.d fun i => v i + dx tr i := by
        funext i
        unfold G
        rw [hu, solved_center, ← solved_params, hd, solved_params]
      have hE : E eigh level occ entropy m1.d (m1.heap a) = E eigh level occ entropy m.d fun i => v i + dx tr i := by
        unfold E
        rw [hx, ← solved_center, hw, solved_center]
        rfl
      rw [hG] at hq
      rw [hE] at h1
      have hc : center ((step eigh level occ delta entropy eps r0 root r2.1 .jacobian).1.heap a) = center fun i => v i + dx tr i := by
        show center (r2.1.heap a) = _
        rw [h4, if_pos rfl, hx, hw, C56_idempotent]
      rw [ih _ _ (fun i => v i + dx tr i) (by exact ha) hc, hq, h1]
      rfl
  exact gen n m tr (m.heap a) ha rfl

/-- **C167**: after `random_displacements` or `from_xyz`, `jacobian` returns the forces before plus the change of the forces of the springs; those
of the electrons do not change until `free_energy` or `diagonalize` is called. -/
theorem C167_stale (root : Bool) (m : Memory n1 n2 n3 nb nat nq) (hc : Current eigh level m) (o : Op nat)
    (ho : (∃ a v, o = .random a v) ∨ ∃ v, o = .fromXyz v) :
    ∀ F, (step eigh level occ delta entropy eps r0 root (step eigh level occ delta entropy eps r0 root m o).1 .jacobian).2 = .forces F → ∀ x,
      F x = G eigh level occ m.d (m.heap m.p) x + ∑ y, (m.d.C0 0 x y).re *
        ((step eigh level occ delta entropy eps r0 root m o).1.heap (step eigh level occ delta entropy eps r0 root m o).1.p y - m.heap m.p y) := by
  intro F hF x
  have hv : (step eigh level occ delta entropy eps r0 root m o).1.view = { m.view with
      u := (step eigh level occ delta entropy eps r0 root m o).1.heap (step eigh level occ delta entropy eps r0 root m o).1.p } := by
    rcases ho with ⟨a, v, rfl⟩ | ⟨v, rfl⟩
    · cases root <;> rfl
    · rfl
  have hF' : F = fun x => (step eigh level occ delta entropy eps r0 root m o).1.view.jacobian occ x := by
    simp only [step] at hF
    exact (Result.forces.inj hF).symm
  rw [hF', hv]
  have hG : G eigh level occ m.d (m.heap m.p) x = m.view.jacobian occ x := by
    unfold G
    rw [hc]
  rw [hG]
  simp only [Driver.jacobian, mul_sub, Finset.sum_sub_distrib]
  show _ = (firstOrderU m.view.kT occ m.view.e m.view.U (m.view.d0 0 x)).re + (∑ y, (m.d.C0 0 x y).re * m.heap m.p y) + m.view.F0 x + _
  show (firstOrderU m.view.kT occ m.view.e m.view.U (m.view.d0 0 x)).re + (∑ y, (m.d.C0 0 x y).re *
    (step eigh level occ delta entropy eps r0 root m o).1.heap (step eigh level occ delta entropy eps r0 root m o).1.p y) + m.view.F0 x = _
  ring

/-! ### Several processes -/

/-- Calls of a user who does not keep arrays shared with the driver. -/
inductive Cmd (nat : Nat) where
  /-- `driver.free_energy(v)` with a new array -/
  | evaluate (v : X nat → ℝ)
  /-- `driver.free_energy()` -/
  | freeEnergy
  | jacobian
  | hessian
  | diagonalize
  | centerMass
  | random (amplitude : ℝ) (rand : X nat → ℝ)
  | fromXyz (v : X nat → Option ℝ)
  | call (r : X nat → ℝ)

variable (eigh level occ delta entropy eps r0) in
/-- Execution of a command. -/
noncomputable def exec (root : Bool) (m : Memory n1 n2 n3 nb nat nq) : Cmd nat → Memory n1 n2 n3 nb nat nq × Result nat
  | .evaluate v => step eigh level occ delta entropy eps r0 root (step eigh level occ delta entropy eps r0 root m (.new v)).1 (.freeEnergy (some m.next))
  | .freeEnergy => step eigh level occ delta entropy eps r0 root m (.freeEnergy none)
  | .jacobian => step eigh level occ delta entropy eps r0 root m .jacobian
  | .hessian => step eigh level occ delta entropy eps r0 root m .hessian
  | .diagonalize => step eigh level occ delta entropy eps r0 root m .diagonalize
  | .centerMass => step eigh level occ delta entropy eps r0 root m .centerMass
  | .random a v => step eigh level occ delta entropy eps r0 root m (.random a v)
  | .fromXyz v => step eigh level occ delta entropy eps r0 root m (.fromXyz v)
  | .call r => step eigh level occ delta entropy eps r0 root m (.call r)

variable (eigh level occ delta entropy eps r0) in
/-- Results of a sequence of commands. -/
noncomputable def execs (root : Bool) : Memory n1 n2 n3 nb nat nq → List (Cmd nat) → List (Result nat)
  | _, [] => []
  | m, c :: cs => (exec eigh level occ delta entropy eps r0 root m c).2 :: execs root (exec eigh level occ delta entropy eps r0 root m c).1 cs

theorem diagonalize_same (m m' : Memory n1 n2 n3 nb nat nq) (h : m.view = m'.view) :
    (m.diagonalize eigh level).view = (m'.diagonalize eigh level).view := by
  rw [diagonalize_view, diagonalize_view, ← solved_params m.d, ← solved_params m'.d]
  have h1 : params m.d = params m'.d := (congrArg params h : params m.view = params m'.view)
  exact congrArg₂ (solved eigh level) h1 (congrArg Driver.u h)

theorem exec_same (m m' : Memory n1 n2 n3 nb nat nq) (h : m.view = m'.view) (root root' : Bool) (c : Cmd nat) :
    (exec eigh level occ delta entropy eps r0 root m c).1.view = (exec eigh level occ delta entropy eps r0 root' m' c).1.view ∧
    (exec eigh level occ delta entropy eps r0 root m c).2 = (exec eigh level occ delta entropy eps r0 root' m' c).2 := by
  have hu : m.heap m.p = m'.heap m'.p := congrArg Driver.u h
  have hset : ∀ v : X nat → ℝ, ({ m.view with u := v } : Driver n1 n2 n3 nb nat nq) = { m'.view with u := v } := fun v => by rw [h]
  have hbind : ∀ v : X nat → ℝ, ({ m.new v with p := m.next } : Memory n1 n2 n3 nb nat nq).view =
      ({ m'.new v with p := m'.next } : Memory n1 n2 n3 nb nat nq).view := by
    intro v
    have h1 : ∀ m : Memory n1 n2 n3 nb nat nq, ({ m.new v with p := m.next } : Memory n1 n2 n3 nb nat nq).view = { m.view with u := v } := by
      intro m
      simp only [Memory.view, Memory.new, Memory.write, if_true]
    rw [h1, h1, hset]
  have hwrite : ∀ v : X nat → ℝ, (m.write m.p v).view = (m'.write m'.p v).view := by
    intro v
    have h1 : ∀ m : Memory n1 n2 n3 nb nat nq, (m.write m.p v).view = { m.view with u := v } := by
      intro m
      simp only [Memory.view, Memory.write, if_true]
    rw [h1, h1, hset]
  cases c with
  | evaluate v =>
    have := diagonalize_same (eigh := eigh) (level := level) _ _ (hbind v)
    refine ⟨this, ?_⟩
    simp only [exec, step]
    exact congrArg (fun d : Driver n1 n2 n3 nb nat nq => Result.energy (d.freeEnergy occ entropy)) this
  | freeEnergy =>
    have := diagonalize_same (eigh := eigh) (level := level) _ _ h
    refine ⟨this, ?_⟩
    simp only [exec, step]
    exact congrArg (fun d : Driver n1 n2 n3 nb nat nq => Result.energy (d.freeEnergy occ entropy)) this
  | jacobian =>
    refine ⟨h, ?_⟩
    simp only [exec, step]
    rw [h]
  | hessian =>
    refine ⟨h, ?_⟩
    simp only [exec, step]
    rw [h]
  | diagonalize => exact ⟨diagonalize_same _ _ h, rfl⟩
  | centerMass =>
    refine ⟨?_, rfl⟩
    show (m.write m.p _).view = (m'.write m'.p _).view
    rw [hu]
    exact hwrite _
  | random a v =>
    have h1 : ∀ (m : Memory n1 n2 n3 nb nat nq) (root : Bool), (step eigh level occ delta entropy eps r0 root m (.random a v)).1.view =
        { m.view with u := randomDisplacements a v } := by
      intro m root
      cases root
      · simp only [step, Memory.view, Memory.write, Bool.false_eq_true, if_false, if_true]
      · simp only [step, Memory.view, Memory.write, Memory.new, Memory.centerMass, randomDisplacements, if_true]
    refine ⟨?_, ?_⟩
    · show (step eigh level occ delta entropy eps r0 root m (.random a v)).1.view = (step eigh level occ delta entropy eps r0 root' m' (.random a v)).1.view
      rw [h1, h1, hset]
    · show (step eigh level occ delta entropy eps r0 root m (.random a v)).2 = (step eigh level occ delta entropy eps r0 root' m' (.random a v)).2
      cases root <;> cases root' <;> rfl
  | fromXyz v =>
    refine ⟨?_, rfl⟩
    show (m.write m.p _).view = (m'.write m'.p _).view
    rw [hu]
    exact hwrite _
  | call r =>
    have := diagonalize_same (eigh := eigh) (level := level) _ _ (hbind fun x => r x - r0 x)
    refine ⟨this, ?_⟩
    simp only [exec, step]
    exact congrArg (fun d : Driver n1 n2 n3 nb nat nq => Result.call (0.5 * d.freeEnergy occ entropy, fun x => -0.5 * d.jacobian occ x, 0)) this

/-- **C167**: all processes obtain the same results if the user does not keep arrays shared with the driver. -/
theorem C167_processes (m m' : Memory n1 n2 n3 nb nat nq) (h : m.view = m'.view) (root root' : Bool) (cs : List (Cmd nat)) :
    execs eigh level occ delta entropy eps r0 root m cs = execs eigh level occ delta entropy eps r0 root' m' cs := by
  induction cs generalizing m m' with
  | nil => rfl
  | cons c cs ih =>
    obtain ⟨h1, h2⟩ := exec_same (eigh := eigh) (level := level) (occ := occ) (delta := delta) (entropy := entropy) (eps := eps) (r0 := r0) m m' h
      root root' c
    simp only [execs]
    rw [h2, ih _ _ h1]

/-- **C167**: what an optimization routine sees as the derivative is the derivative of what it sees as the function, if sum rules have been applied. -/
theorem C167_gradient [NeZero nb] (heps : 0 ≤ eps) (hdelta : ∀ x, 0 < delta x) (hocc : StrictAnti occ)
    (ho : ∀ x, HasDerivAt occ (-delta x) x) (hs : ∀ x, HasDerivAt entropy (-x * delta x) x) (unscreen : Bool) (kT n : ℝ)
    (hkT : 0 < kT) (q : Fin (nq + 1) → Fin 3 → ℝ) (hq : q 0 = fun _ => 0) (H0 : Mesh n1 n2 n3 → Matrix (Fin nb) (Fin nb) ℂ)
    (C0 : Fin (nq + 1) → X nat → X nat → ℂ) (d0 : Fin (nq + 1) → X nat → Mesh n1 n2 n3 → Matrix (Fin nb) (Fin nb) ℂ) (c : Fin 3 → ℝ)
    (hinv : Translation.Invariant C0 d0 c) (h : Externals occ eigh level (Driver.init eigh level eps occ delta unscreen kT n q H0 C0 d0))
    (v : ℝ → X nat → ℝ) (v' : X nat → ℝ) (t : ℝ)
    (hr : Smooth occ (Driver.init eigh level eps occ delta unscreen kT n q H0 C0 d0) (fun _ => 0) v v' t) :
    HasDerivAt (fun τ => E eigh level occ entropy (Driver.init eigh level eps occ delta unscreen kT n q H0 C0 d0) (v τ))
      (∑ x, G eigh level occ (Driver.init eigh level eps occ delta unscreen kT n q H0 C0 d0) (v t) x * v' x) t := by
  have key := Translation.C166_gradient eps heps delta entropy hdelta hocc ho hs unscreen kT n hkT q hq H0 C0 d0 c hinv h (fun _ => 0) v v' t hr
  set s := Driver.init eigh level eps occ delta unscreen kT n q H0 C0 d0
  have h1 : ∀ w : X nat → ℝ, s.at eigh level (fun _ => 0) w = solved eigh level s w := by
    intro w
    unfold Driver.at solved
    simp only [sub_zero]
    rfl
  simp only [Driver.call, h1] at key
  have h2 := key.const_mul 2
  have e1 : (fun τ => 2 * (0.5 * (solved eigh level s (v τ)).freeEnergy occ entropy)) = fun τ => E eigh level occ entropy s (v τ) := by
    funext τ
    unfold E
    ring
  rw [e1] at h2
  refine h2.congr_deriv ?_
  rw [← Finset.sum_neg_distrib, Finset.mul_sum]
  refine Finset.sum_congr rfl fun x _ => ?_
  unfold G
  ring

end results

/-! ### Violations -/

section violations

/-- Two orbitals, whose energies are shifted in opposite directions if two atoms approach each other. -/
noncomputable def duo : Driver 1 1 1 2 2 0 where
  kT := 1
  n := 2
  q := fun _ _ => 0
  H0 := fun _ => 0
  C0 := fun _ x y => if x.2 = 0 ∧ y.2 = 0 then (if x.1 = y.1 then 1 else -1) else 0
  d0 := fun _ x _ => if x = (0, 0) then diagonal ![1, -1] else if x = (1, 0) then diagonal ![-1, 1] else 0
  F0 := fun _ => 0
  u := fun _ => 0
  e := fun _ _ => 0
  U := fun _ => 1
  mu := 0

open Classical in
/-- Diagonalization of Hermitian matrices. -/
noncomputable def eigh2 (A : Matrix (Fin 2) (Fin 2) ℂ) : (Fin 2 → ℝ) × Matrix (Fin 2) (Fin 2) ℂ :=
  if h : A.IsHermitian then ((Derivatives.exists_diagonalizes A h).choose, (Derivatives.exists_diagonalizes A h).choose_spec.choose) else (fun _ => 0, 1)

/-- Chemical potential of two orbitals with two electrons. -/
noncomputable def level2 (e : Mesh 1 1 1 → Fin 2 → ℝ) : ℝ := (e (0, 0, 0) 0 + e (0, 0, 0) 1) / 2

theorem duo_externals : Externals Verif.Occ.gauss eigh2 level2 duo where
  eig := fun A hA => by
    unfold eigh2
    rw [dif_pos (show A.IsHermitian from hA)]
    exact (Derivatives.exists_diagonalizes A hA).choose_spec.choose_spec.1
  unitary := fun A hA => by
    unfold eigh2
    rw [dif_pos (show A.IsHermitian from hA)]
    exact (Derivatives.exists_diagonalizes A hA).choose_spec.choose_spec.2
  number := fun e => by
    have h0 : ∀ k : Mesh 1 1 1, k = (0, 0, 0) := fun k => Subsingleton.elim _ _
    rw [Fintype.sum_eq_single (0, 0, 0) (fun k hk => absurd (h0 k) hk), Fin.sum_univ_two]
    have h1 := Verif.Occ.C35_gauss.symm ((e (0, 0, 0) 0 - level2 e) / duo.kT)
    have h2 : (e (0, 0, 0) 1 - level2 e) / duo.kT = -((e (0, 0, 0) 0 - level2 e) / duo.kT) := by
      unfold level2
      ring
    rw [h2, h1]
    simp [duo]
  hamiltonian := fun k => by simp [duo]
  coupling := fun x k => by
    simp only [duo]
    split
    · rw [diagonal_conjTranspose]
      congr 1
      funext i
      fin_cases i <;> simp
    · split
      · rw [diagonal_conjTranspose]
        congr 1
        funext i
        fin_cases i <;> simp
      · simp

theorem duo_diagonalized (t : ℝ) : Diagonalized Verif.Occ.gauss (duo.move (stretch t) (fun _ n => if n = 0 then 2 * t else -(2 * t)) (fun _ => 1) 0) where
  eig := fun k => by
    rw [show (duo.move (stretch t) (fun _ n => if n = 0 then 2 * t else -(2 * t)) (fun _ => 1) 0).U k = 1 from rfl, Matrix.mul_one, Matrix.one_mul]
    unfold Driver.H
    rw [sum_X2]
    ext i j
    fin_cases i <;> fin_cases j <;> simp [Driver.move, duo, stretch] <;> ring
  unitary := fun k => by simp [Driver.move]
  number := by
    have h0 : ∀ k : Mesh 1 1 1, k = (0, 0, 0) := fun k => Subsingleton.elim _ _
    rw [Fintype.sum_eq_single (0, 0, 0) (fun k hk => absurd (h0 k) hk), Fin.sum_univ_two]
    have h1 := Verif.Occ.C35_gauss.symm (2 * t)
    simp [Driver.move, duo, h1]

theorem duo_G (t : ℝ) : G eigh2 level2 Verif.Occ.gauss duo (stretch t) (0, 0) = 2 * t + 2 * (Verif.Occ.gauss (2 * t) - Verif.Occ.gauss (-(2 * t))) := by
  have e : (center fun x => stretch t x - 0) = stretch t := by
    simp only [sub_zero]
    exact center_stretch t
  have h := (at_path duo_externals Verif.Occ.C35_gauss.anti one_pos (fun _ => 0) (stretch t)
    (e := fun _ n => if n = 0 then 2 * t else -(2 * t)) (U := fun _ => 1) (mu := 0) (by rw [e]; exact duo_diagonalized t) Verif.Occ.gaussEntropy).2 (0, 0)
  have h1 : duo.at eigh2 level2 (fun _ => 0) (stretch t) = solved eigh2 level2 duo (stretch t) := by
    unfold Driver.at solved
    simp only [sub_zero]
    rfl
  rw [h1, e] at h
  unfold G
  rw [h]
  unfold Driver.jacobian firstOrderU
  rw [sum_X2]
  simp only [Fintype.sum_prod_type, Finset.univ_unique, Finset.sum_singleton, Fin.sum_univ_two]
  simp [Driver.move, duo, stretch]
  ring

theorem dimer_E (t : ℝ) : E (fun A : Matrix (Fin 1) (Fin 1) ℂ => (fun _ => (A 0 0).re, 1)) (fun e : Mesh 1 1 1 → Fin 1 → ℝ => e (0, 0, 0) 0)
    Verif.Occ.gauss Verif.Occ.gaussEntropy dimer (stretch t) = -2 * Verif.Occ.gaussEntropy 0 + 2 * t ^ 2 := by
  have e : (center fun x => stretch t x - 0) = stretch t := by
    simp only [sub_zero]
    exact center_stretch t
  have h := (at_path dimer_externals Verif.Occ.C35_gauss.anti one_pos (fun _ => 0) (stretch t) (e := fun _ _ => 0) (U := fun _ => 1)
    (mu := 2 * t) (by rw [e]; exact dimer_diagonalized t) Verif.Occ.gaussEntropy).1
  have h1 : dimer.at (fun A : Matrix (Fin 1) (Fin 1) ℂ => (fun _ => (A 0 0).re, 1)) (fun e => e (0, 0, 0) 0) (fun _ => 0) (stretch t) =
      solved (fun A : Matrix (Fin 1) (Fin 1) ℂ => (fun _ => (A 0 0).re, 1)) (fun e => e (0, 0, 0) 0) dimer (stretch t) := by
    unfold Driver.at solved
    simp only [sub_zero]
    rfl
  rw [h1, e] at h
  unfold E
  rw [h]
  unfold Driver.freeEnergy
  simp only [sum_X2]
  simp [Driver.move, dimer, stretch]
  ring

/-- Random numbers that lead to a given distortion. -/
noncomputable def dice (t : ℝ) (x : X 2) : ℝ := (1 - stretch t x) / 2

theorem dice_range (t : ℝ) (h : |t| ≤ 1) (x : X 2) : 0 ≤ dice t x ∧ dice t x ≤ 1 := by
  have h' := abs_le.1 h
  unfold dice stretch
  constructor <;> split <;> [skip; split; skip; split] <;> linarith

theorem random_dice (t : ℝ) : randomDisplacements 1 (dice t) = stretch t := by
  unfold randomDisplacements
  rw [show (fun x => 1 * (1 - 2 * dice t x)) = stretch t by funext x; unfold dice; ring, center_stretch]

theorem stretch_zero : stretch 0 = fun _ => 0 := by
  funext x
  simp [stretch]

theorem center_zero : center (fun _ : X 2 => (0 : ℝ)) = fun _ => 0 := by
  rw [← stretch_zero, center_stretch]

/-- **C167** (violation): after `random_displacements`, neither `jacobian` nor, consequently, an optimization routine calling it before `free_energy`
obtains the derivative of the free energy at the new (or old) displacements. -/
theorem C167_stale_violated (delta entropy : ℝ → ℝ) (eps : ℝ) (r0 : X 2 → ℝ) (root : Bool) (m : Memory 1 1 1 2 2 0) (hd : params m.d = params duo)
    (hu : m.heap m.p = fun _ => 0) (hc : Current eigh2 level2 m) (t : ℝ) (ht : 0 < t) :
    ∀ F, (step eigh2 level2 Verif.Occ.gauss delta entropy eps r0 root
        (step eigh2 level2 Verif.Occ.gauss delta entropy eps r0 root m (.random 1 (dice t))).1 .jacobian).2 = .forces F →
      F (0, 0) ≠ G eigh2 level2 Verif.Occ.gauss m.d (stretch t) (0, 0) ∧ F (0, 0) ≠ G eigh2 level2 Verif.Occ.gauss m.d (m.heap m.p) (0, 0) := by
  intro F hF
  have h := C167_stale root m hc (.random 1 (dice t)) (Or.inl ⟨_, _, rfl⟩) F hF (0, 0)
  have hn : (step eigh2 level2 Verif.Occ.gauss delta entropy eps r0 root m (.random 1 (dice t))).1.heap
      (step eigh2 level2 Verif.Occ.gauss delta entropy eps r0 root m (.random 1 (dice t))).1.p = stretch t := by
    cases root
    · simp only [step, Memory.write, Bool.false_eq_true, if_false, if_true]
      exact random_dice t
    · simp only [step, Memory.write, Memory.new, Memory.centerMass, if_true]
      exact random_dice t
  have hG : ∀ t, G eigh2 level2 Verif.Occ.gauss m.d (stretch t) (0, 0) =
      2 * t + 2 * (Verif.Occ.gauss (2 * t) - Verif.Occ.gauss (-(2 * t))) := by
    intro t
    rw [← duo_G t]
    unfold G
    rw [← solved_params, hd, solved_params]
  have hC : m.d.C0 = duo.C0 := (congrArg Driver.C0 hd : (params m.d).C0 = (params duo).C0)
  have hg := Verif.Occ.C35_gauss.symm (2 * t)
  have hg' := Verif.Occ.C35_gauss.anti (show -(2 * t) < 2 * t by linarith)
  have h0 := hG 0
  rw [stretch_zero] at h0
  rw [hn, hu, hC, h0, sum_X2] at h
  simp [duo, stretch] at h
  rw [hG, hu, h0, h]
  constructor
  · intro hh
    linarith
  · simp
    linarith

/-- **C167** (violation): if an array of the user has been handed over to `free_energy`, `random_displacements` changes it on all processes but the
first, which then obtain different free energies for it. -/
theorem C167_processes_violated (delta : ℝ → ℝ) (eps : ℝ) (r0 : X 2 → ℝ) (m : Memory 1 1 1 1 2 0) (hd : m.d = dimer) (hp : m.p < m.next) :
    ∀ root, (run (fun A : Matrix (Fin 1) (Fin 1) ℂ => (fun _ => (A 0 0).re, 1)) (fun e : Mesh 1 1 1 → Fin 1 → ℝ => e (0, 0, 0) 0) Verif.Occ.gauss delta
      Verif.Occ.gaussEntropy eps r0 root m [.new fun _ => 0, .freeEnergy (some m.next), .random 1 (dice 1), .freeEnergy (some m.next)]).2 =
      [.address m.next, .energy (-(2 * Verif.Occ.gaussEntropy 0)), .none,
        .energy (-(2 * Verif.Occ.gaussEntropy 0) + if root then 0 else 2)] := by
  have h0 := dimer_E 0
  have h1 := dimer_E 1
  rw [stretch_zero] at h0
  norm_num at h0 h1
  intro root
  simp only [run]
  set s := step (fun A : Matrix (Fin 1) (Fin 1) ℂ => (fun _ => (A 0 0).re, 1)) (fun e : Mesh 1 1 1 → Fin 1 → ℝ => e (0, 0, 0) 0) Verif.Occ.gauss delta
      Verif.Occ.gaussEntropy eps r0 root with hs
  set m1 := (s m (.new fun _ => 0)).1 with hm1
  set m2 := (s m1 (.freeEnergy (some m.next))).1 with hm2
  set m3 := (s m2 (.random 1 (dice 1))).1 with hm3
  have hd1 : m1.d = dimer := hd
  have hx1 : m1.heap m.next = fun _ => 0 := if_pos rfl
  have hx2 : m2.heap m.next = fun _ => 0 := by
    rw [hm2, (C167_free_energy root m1 m.next).2.2.2, if_pos rfl, hx1, center_zero]
  have hx3 : m3.heap m.next = if root then fun _ => 0 else stretch 1 := by
    rw [hm3, hs]
    cases root
    · simp only [step, Memory.write, Bool.false_eq_true, if_false]
      rw [if_pos (show m.next = m2.p from rfl), random_dice]
    · simp only [step, Memory.write, Memory.new, Memory.centerMass, if_true]
      have hn : m2.next = m.next + 1 := rfl
      rw [if_neg (by omega), if_neg (by omega), hx2]
  have hd3 : params m3.d = params dimer := by
    rw [hm3, hs]
    have : params m2.d = params dimer := by
      show params m1.d = _
      rw [hd1]
    cases root <;> exact this
  have hE3 : ∀ v, E (fun A : Matrix (Fin 1) (Fin 1) ℂ => (fun _ => (A 0 0).re, 1)) (fun e : Mesh 1 1 1 → Fin 1 → ℝ => e (0, 0, 0) 0) Verif.Occ.gauss
      Verif.Occ.gaussEntropy m3.d v = E (fun A : Matrix (Fin 1) (Fin 1) ℂ => (fun _ => (A 0 0).re, 1)) (fun e : Mesh 1 1 1 → Fin 1 → ℝ => e (0, 0, 0) 0)
      Verif.Occ.gauss Verif.Occ.gaussEntropy dimer v := by
    intro v
    unfold E
    rw [← solved_params, hd3, solved_params]
  rw [(C167_free_energy root m1 m.next).1, (C167_free_energy root m3 m.next).1, hx1, hd1, hx3, hE3, h0]
  cases root
  · simp only [Bool.false_eq_true, if_false]
    rw [h1, hs]
    rfl
  · simp only [if_true, add_zero]
    rw [h0, hs]
    rfl

/-- Driver for the two orbitals after creation. -/
noncomputable def start : Memory 1 1 1 2 2 0 := ({ heap := fun _ _ => 0, next := 1, p := 0, d := duo } : Memory 1 1 1 2 2 0).diagonalize eigh2 level2

theorem start_current : Current eigh2 level2 start := diagonalize_current _

/-- Hypotheses of `C167_query`: many harmless calls, including changes of other arrays. -/
example (root : Bool) := C167_query (occ := Verif.Occ.gauss) (delta := Verif.Occ.gaussDelta) (entropy := Verif.Occ.gaussEntropy) (eps := 1) (r0 := fun _ => 0)
  root start Nat.zero_lt_one start_current [.new (stretch 1), .write 1 (stretch 2), .jacobian, .centerMass, .freeEnergy (some 0), .hessian, .freeEnergy none]
  (by simp [Harmless, start, Memory.diagonalize, Memory.centerMass, Memory.write])

/-- Hypotheses of `C167_inplace`: steepest descent. -/
example (root : Bool) := C167_inplace (eigh := eigh2) (level := level2) (occ := Verif.Occ.gauss) (delta := Verif.Occ.gaussDelta)
  (entropy := Verif.Occ.gaussEntropy) (eps := 1) (r0 := fun _ => 0) root 0
  (fun tr => match tr.getLast? with | some f => fun i => -f.2 i | none => stretch 1) 10 start [] Nat.zero_lt_one

/-- Hypotheses of `C167_stale` and `C167_stale_violated`. -/
example (root : Bool) := C167_stale_violated Verif.Occ.gaussDelta Verif.Occ.gaussEntropy 1 (fun _ => 0) root start rfl (by
  show (if (0 : Nat) = 0 then center fun _ : X 2 => (0 : ℝ) else fun _ => 0) = _
  rw [if_pos rfl, center_zero]) start_current 1 one_pos

/-- Hypotheses of `C167_processes`: the arrays on other processes are different but that of the driver. -/
example := C167_processes (eigh := eigh2) (level := level2) (occ := Verif.Occ.gauss) (delta := Verif.Occ.gaussDelta) (entropy := Verif.Occ.gaussEntropy)
  (eps := 1) (r0 := fun _ => 0) start { start.write 5 (stretch 1) with next := 6 } (by
    simp only [Memory.view, Memory.write]
    rw [if_neg (by simp [start, Memory.diagonalize, Memory.centerMass, Memory.write])]) true false
  [.random 1 (dice 1), .jacobian, .evaluate (stretch 2), .hessian, .fromXyz fun x => if x = (0, 0) then some 1 else none, .freeEnergy]

/-- Hypotheses of `C167_gradient`. -/
example (unscreen : Bool) (t : ℝ) := C167_gradient (eps := 1) zero_le_one (fun x => by unfold Verif.Occ.gaussDelta; positivity) Verif.Occ.C35_gauss.anti
  (fun x => (Verif.Occ.C36_gauss x).1) Verif.Occ.C37_gauss unscreen 1 1 one_pos (fun _ _ => 0) rfl dimer.H0 dimer.C0 dimer.d0 (fun _ => 0)
  Translation.dimer_invariant (Translation.dimer_init unscreen) (fun t x => 0 + stretch t x) (stretch 1) t (by
    obtain ⟨e, U, mu, e', U', mu', hp⟩ := dimer_path (fun t => t) 1 t (hasDerivAt_id t) fun _ => 0
    refine ⟨e, U, mu, e', U', mu', ⟨fun t => ?_, hp.du, hp.de, hp.dU, hp.dmu⟩⟩
    have := hp.diag t
    cases unscreen <;> exact ⟨this.eig, this.unitary, this.number⟩)

end violations

end Verif.MD.Optimize
