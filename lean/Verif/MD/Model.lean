import Mathlib.LinearAlgebra.Matrix.ConjTranspose
import Mathlib.Data.Matrix.Diagonal
import Mathlib.Analysis.Complex.Basic
import Verif.Diag.Model

/-!
# Model of `elphmod/md.py`

Molecular dynamics on free-energy surfaces. Exact arithmetic. Diagonalization (`np.linalg.eigh`) and the chemical
potential (`find_Fermi_level`, see C38) are external. Occupation function, derivative and entropy are parameters. The
displacement index `3 * na + x` is the pair `(na, x)`. The mesh of q points has `nq + 1` points, the first one being zero.
Plots, messages, and files are not part of this module; for two chemical potentials (`two_fermi_dirac`) see `MD/Photo.lean`.
-/

namespace Verif.MD

open Verif.Diag

/-- Displacements. -/
abbrev X (nat : Nat) := Fin nat × Fin 3

/-- Attributes of `elphmod.md.Driver` (dense case), `elphmod/md.py` 93-172. -/
structure Driver (n1 n2 n3 nb nat nq : Nat) where
  kT : ℝ
  n : ℝ
  q : Fin (nq + 1) → Fin 3 → ℝ
  H0 : Mesh n1 n2 n3 → Matrix (Fin nb) (Fin nb) ℂ
  C0 : Fin (nq + 1) → X nat → X nat → ℂ
  d0 : Fin (nq + 1) → X nat → Mesh n1 n2 n3 → Matrix (Fin nb) (Fin nb) ℂ
  F0 : X nat → ℝ
  u : X nat → ℝ
  e : Mesh n1 n2 n3 → Fin nb → ℝ
  U : Mesh n1 n2 n3 → Matrix (Fin nb) (Fin nb) ℂ
  mu : ℝ

variable {n1 n2 n3 nb nat nq : Nat}

/-- `elphmod/md.py` 188-192 (`center_mass`). -/
noncomputable def center (u : X nat → ℝ) (i : X nat) : ℝ := u i - (∑ na, u (na, i.2)) / nat

/-- Hamiltonian, `elphmod/md.py` 231. -/
noncomputable def Driver.H (s : Driver n1 n2 n3 nb nat nq) (k : Mesh n1 n2 n3) : Matrix (Fin nb) (Fin nb) ℂ :=
  s.H0 k + ∑ x, (s.u x : ℂ) • s.d0 0 x k

/-- `elphmod/md.py` 223-235 (`diagonalize`), not sparse. -/
noncomputable def Driver.diagonalize (eigh : Matrix (Fin nb) (Fin nb) ℂ → (Fin nb → ℝ) × Matrix (Fin nb) (Fin nb) ℂ)
    (level : (Mesh n1 n2 n3 → Fin nb → ℝ) → ℝ) (s : Driver n1 n2 n3 nb nat nq) : Driver n1 n2 n3 nb nat nq :=
  let s := { s with u := center s.u }
  let e := fun k => (eigh (s.H k)).1
  { s with U := fun k => (eigh (s.H k)).2, mu := level e, e := fun k n => e k n - level e }

/-- `elphmod/md.py` 237-276 (`free_energy`): free energy after diagonalization. -/
noncomputable def Driver.freeEnergy (occ entropy : ℝ → ℝ) (s : Driver n1 n2 n3 nb nat nq) : ℝ :=
  2 / (n1 * n2 * n3 : Nat) * (∑ k, ∑ n, occ (s.e k n / s.kT) * s.e k n) + s.mu * s.n -
    2 / (n1 * n2 * n3 : Nat) * s.kT * (∑ k, ∑ n, entropy (s.e k n / s.kT)) +
    0.5 * (∑ x, ∑ y, s.u x * (s.C0 0 x y).re * s.u y) + ∑ x, s.F0 x * s.u x

/-- `elphmod/md.py` 278-313 (`jacobian`), not sparse. -/
noncomputable def Driver.jacobian (occ : ℝ → ℝ) (s : Driver n1 n2 n3 nb nat nq) (x : X nat) : ℝ :=
  (firstOrderU s.kT occ s.e s.U (s.d0 0 x)).re + (∑ y, (s.C0 0 x y).re * s.u y) + s.F0 x

variable [NeZero n1] [NeZero n2] [NeZero n3]

/-- Coupling in the band basis, `elphmod/md.py` 396-406; `np.roll` with negative shifts is a slice of the tiled array. -/
noncomputable def Driver.d (s : Driver n1 n2 n3 nb nat nq) (iq : Fin (nq + 1)) : Cpl n1 n2 n3 nb (X nat) :=
  fun x k => (slice s.U (qIndices n1 n2 n3 (s.q iq)) k).conjTranspose * s.d0 iq x k * s.U k

/-- Electronic part of the Hessian, `elphmod/md.py` 396-415. -/
noncomputable def Driver.electronic (eps : ℝ) (occ delta : ℝ → ℝ) (s : Driver n1 n2 n3 nb nat nq) (iq : Fin (nq + 1))
    (x y : X nat) : ℂ :=
  selfEnergy false false (fun k m n => (weights eps s.kT occ delta none s.e (s.q iq) k m n : ℂ)) (fun _ _ => 0) (s.d iq) none
    x y + if iq = 0 then fermiShift s.kT delta s.e (s.d 0) x y else 0

/-- `elphmod/md.py` 315-442 (`hessian`), not sparse, `gamma_only=False`. -/
noncomputable def Driver.hessian (eps : ℝ) (occ delta : ℝ → ℝ) (s : Driver n1 n2 n3 nb nat nq) (iq : Fin (nq + 1))
    (x y : X nat) : ℂ := s.electronic eps occ delta iq x y + s.C0 iq x y

/-- `elphmod/md.py` 315-442 (`hessian`), not sparse, `gamma_only=True`. -/
noncomputable def Driver.hessianGamma (eps : ℝ) (occ delta : ℝ → ℝ) (s : Driver n1 n2 n3 nb nat nq) (x y : X nat) : ℝ :=
  (s.hessian eps occ delta 0 x y).re

/-- `elphmod/md.py` 93-151 (`__init__`), not sparse, without supercell: `H0`, `C0` and `d0` are sampled from `elph`. -/
noncomputable def Driver.init (eigh : Matrix (Fin nb) (Fin nb) ℂ → (Fin nb → ℝ) × Matrix (Fin nb) (Fin nb) ℂ)
    (level : (Mesh n1 n2 n3 → Fin nb → ℝ) → ℝ) (eps : ℝ) (occ delta : ℝ → ℝ) (unscreen : Bool) (kT n : ℝ)
    (q : Fin (nq + 1) → Fin 3 → ℝ) (H0 : Mesh n1 n2 n3 → Matrix (Fin nb) (Fin nb) ℂ)
    (C0 : Fin (nq + 1) → X nat → X nat → ℂ)
    (d0 : Fin (nq + 1) → X nat → Mesh n1 n2 n3 → Matrix (Fin nb) (Fin nb) ℂ) : Driver n1 n2 n3 nb nat nq :=
  let s : Driver n1 n2 n3 nb nat nq := ⟨kT, n, q, H0, C0, d0, fun _ => 0, fun _ => 0, fun _ _ => 0, fun _ => 0, 0⟩
  let s := s.diagonalize eigh level
  let s := if unscreen then { s with C0 := fun iq x y => s.C0 iq x y - (s.hessian eps occ delta iq x y - s.C0 iq x y) } else s
  { s with F0 := fun x => -s.jacobian occ x }

/-! ### Sparse matrices -/

/-- Attributes in the sparse case: real matrices, one k and q point. -/
structure Sparse (nb nat : Nat) where
  kT : ℝ
  H0 : Matrix (Fin nb) (Fin nb) ℝ
  C0 : X nat → X nat → ℝ
  d0 : X nat → Matrix (Fin nb) (Fin nb) ℝ
  F0 : X nat → ℝ
  u : X nat → ℝ
  e : Fin nb → ℝ
  U : Matrix (Fin nb) (Fin nb) ℝ

/-- `elphmod/md.py` 297-307 (`jacobian`, sparse); `multiply` is element by element. -/
noncomputable def Sparse.jacobian (occ : ℝ → ℝ) (s : Sparse nb nat) (x : X nat) : ℝ :=
  let f : Matrix (Fin nb) (Fin nb) ℝ := Matrix.of (fun a n => s.U a n * occ (s.e n / s.kT)) * s.U.transpose
  2 * (∑ a, ∑ b, s.d0 x a b * f a b) + (∑ y, s.C0 x y * s.u y) + s.F0 x

/-- `elphmod/md.py` 347-394 (`hessian`, sparse); element `C[x, y]` for `x <= y`, the other ones are set equal. -/
noncomputable def Sparse.hessianUpper (eps : ℝ) (occ delta : ℝ → ℝ) (s : Sparse nb nat) (x y : X nat) : ℝ :=
  let f := fun n => 2 * occ (s.e n / s.kT)
  let d := fun n => 2 * delta (s.e n / s.kT) / -s.kT
  let dfde := fun m n => if |s.e m - s.e n| > eps then (f m - f n) / (s.e m - s.e n) else d n
  let dos := -∑ n, d n
  let V := s.U.transpose
  let dOrb : Matrix (Fin nb) (Fin nb) ℝ := Matrix.of (fun a n => s.U a n * d n) * V
  let avg := fun x => (∑ a, ∑ b, s.d0 x a b * dOrb a b) / Real.sqrt dos
  let gx : Matrix (Fin nb) (Fin nb) ℝ := V * (s.d0 x * s.U)
  let gx' : Matrix (Fin nb) (Fin nb) ℝ := s.U * Matrix.of (fun m n => gx m n * dfde m n) * V
  (∑ a, ∑ b, s.d0 y a b * gx' a b) + avg x * avg y

end Verif.MD
