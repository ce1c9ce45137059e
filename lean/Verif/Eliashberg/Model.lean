import Mathlib.Analysis.SpecialFunctions.Pow.Real
import Mathlib.Analysis.SpecialFunctions.Log.Basic
import Mathlib.Analysis.SpecialFunctions.Sqrt
import Verif.Mesh.Model

/-!
# Model of `elphmod/eliashberg.py`

Exact arithmetic. The arrays `w2`, `g2dd` and `dd`, whose rows correspond to the sorted list of irreducible q points, are
functions of these points. The double Fermi-surface averages `g2dd` and `dd` and the density of states `N0` are parameters
(`Verif.Diag.fsEnum`, `Verif.Diag.fsDeno` without tetrahedron method).
-/

namespace Verif.Eliashberg

open Verif.Mesh

/-- `np.cbrt`. -/
noncomputable def cbrt (x : ℝ) : ℝ := if 0 ≤ x then x ^ (1 / 3 : ℝ) else -(-x) ^ (1 / 3 : ℝ)

/-- `elphmod/eliashberg.py` 38-39: McMillan's formula. -/
noncomputable def TcPlain (kB lamda wlog mustar : ℝ) : ℝ :=
  wlog / (1.20 * kB) * Real.exp (-1.04 * (1 + lamda) / max 1e-3 (lamda - mustar * (1 + 0.62 * lamda)))

/-- `elphmod/eliashberg.py` 43-44: strong-coupling correction. -/
noncomputable def strong (lamda mustar : ℝ) : ℝ :=
  cbrt (1 + (lamda / (2.46 * (1 + 3.8 * mustar))) ^ (1.5 : ℝ))

/-- `elphmod/eliashberg.py` 48-49: shape correction. -/
noncomputable def shape (lamda wlog mustar w2nd : ℝ) : ℝ :=
  let Lamda := 1.82 * (1 + 6.3 * mustar) * w2nd / wlog
  1 + (w2nd / wlog - 1) * lamda ^ 2 / (lamda ^ 2 + Lamda ^ 2)

/-- `elphmod/eliashberg.py` 14-51 (`Tc`). -/
noncomputable def Tc (kB lamda wlog mustar : ℝ) (w2nd : Option ℝ) (correct : Bool) : ℝ :=
  let Tc := TcPlain kB lamda wlog mustar
  if correct then
    let Tc := Tc * strong lamda mustar
    match w2nd with
    | none => Tc
    | some w => Tc * shape lamda wlog mustar w
  else Tc

/-- Inputs of the second part of `McMillan`. -/
structure Input (nph : Nat) where
  nq : Nat
  N0 : ℝ
  eps : ℝ
  w2 : P → Fin nph → ℝ
  g2dd : P → Fin nph → ℝ
  dd : P → ℝ

variable {nph : Nat}

/-- `elphmod/eliashberg.py` 102-105: `weights`. -/
def Input.weight (s : Input nph) (q : P) : ℝ := (images q s.nq .a60).card

/-- `elphmod/eliashberg.py` 141-145: `w2[dangerous] = eps`. -/
noncomputable def Input.w2' (s : Input nph) (q : P) (nu : Fin nph) : ℝ := if s.w2 q nu < s.eps then s.eps else s.w2 q nu

/-- `elphmod/eliashberg.py` 138-148: `V = g2dd / w2`. -/
noncomputable def Input.V (s : Input nph) (q : P) (nu : Fin nph) : ℝ :=
  (if s.w2 q nu < s.eps then 0 else s.g2dd q nu * s.weight q) / s.w2' q nu

/-- `V.sum()`. -/
noncomputable def Input.sumV (s : Input nph) : ℝ := ∑ q ∈ irreducibles s.nq .a60, ∑ nu, s.V q nu

/-- `elphmod/eliashberg.py` 150. -/
noncomputable def Input.lamda (s : Input nph) : ℝ :=
  s.N0 * s.sumV / ∑ q ∈ irreducibles s.nq .a60, s.dd q * s.weight q

/-- `elphmod/eliashberg.py` 151. -/
noncomputable def Input.wlog (s : Input nph) : ℝ :=
  Real.exp ((∑ q ∈ irreducibles s.nq .a60, ∑ nu, s.V q nu * Real.log (s.w2' q nu) / 2) / s.sumV)

/-- `elphmod/eliashberg.py` 154. -/
noncomputable def Input.w2nd (s : Input nph) : ℝ :=
  Real.sqrt ((∑ q ∈ irreducibles s.nq .a60, ∑ nu, s.V q nu * s.w2' q nu) / s.sumV)

/-- `elphmod/eliashberg.py` 53-158 (`McMillan`): coupling strength, average frequency, critical temperature and, with corrections,
second-moment average. -/
noncomputable def McMillan (kB mustar : ℝ) (correct : Bool) (s : Input nph) : ℝ × ℝ × ℝ × Option ℝ :=
  if correct then (s.lamda, s.wlog, Tc kB s.lamda s.wlog mustar (some s.w2nd) true, some s.w2nd)
  else (s.lamda, s.wlog, Tc kB s.lamda s.wlog mustar none false, none)

end Verif.Eliashberg
