import Verif.MPI.Model
import Verif.Voronoi.Model
import Mathlib.Analysis.SpecialFunctions.Complex.Circle
import Mathlib.Analysis.SpecialFunctions.Trigonometric.Basic

/-!
# Model of Fourier transforms between meshes and Wigner-Seitz lattice vectors

`elphmod/bravais.py` (`short_range_model`, `Fourier_interpolation`), `elphmod/el.py` (`k2r`,
`Model.H`), `elphmod/ph.py` (`q2r` from the full mesh, `Model.D` without long-range terms),
`elphmod/elel.py` (`q2r`, `Model.W`), `elphmod/elph.py` (`q2r`, Fourier transforms of `Model.g`).

Arrays are functions of their indices. The combined index `i * ncart + x` of an atom and a Cartesian
direction is modelled by the pair `(i, x)`.
-/

namespace Verif.Fourier

open Verif.Voronoi (V3 P Angle mesh3 meshPoints toVoronoi wigner)

/-- `np.exp(1j * self.R.dot(k))`, e.g., `elphmod/el.py` 124. -/
noncomputable def phase (R : V3) (k : Fin 3 → ℝ) : ℂ :=
  Complex.exp (Complex.I * ((R.1 : ℂ) * (k 0 : ℂ) + (R.2.1 : ℂ) * (k 1 : ℂ) + (R.2.2 : ℂ) * (k 2 : ℂ)))

/-- `np.einsum('Rab,R->ab', self.data, np.exp(1j * self.R.dot(k)))`: `elphmod/el.py` 124 (`H`),
`elphmod/ph.py` 167 (`D`), `elphmod/elel.py` 75 (`W`). -/
noncomputable def bloch {α : Type} (l : List (V3 × (α → α → ℂ))) (k : Fin 3 → ℝ) (a b : α) : ℂ :=
  (l.map fun e => e.2 a b * phase e.1 k).sum

/-- `np.fft.ifftn(f, axes=(0, 1, 2))[m]` for one matrix element. -/
noncomputable def ifftn (n1 n2 n3 : Nat) (f : V3 → ℂ) (m : V3) : ℂ :=
  ((mesh3 n1 n2 n3).map fun k => f k *
    (Complex.exp (2 * Real.pi * Complex.I * ((k.1 : ℂ) * (m.1 : ℂ) / (n1 : ℂ))) *
      Complex.exp (2 * Real.pi * Complex.I * ((k.2.1 : ℂ) * (m.2.1 : ℂ) / (n2 : ℂ))) *
      Complex.exp (2 * Real.pi * Complex.I * ((k.2.2 : ℂ) * (m.2.2 : ℂ) / (n3 : ℂ))))).sum /
    ((n1 : ℂ) * (n2 : ℂ) * (n3 : ℂ))

/-- `elphmod/bravais.py` 1381-1383: mesh point from which the entry for `R` is taken. -/
def meshIndex (sgn : Int) (n1 n2 n3 : Nat) (R : V3) : V3 :=
  (sgn * R.1 % n1, sgn * R.2.1 % n2, sgn * R.2.2 % n3)

/-- `elphmod/bravais.py` 1385-1397: block of the array `const` that belongs to one lattice vector. -/
noncomputable def constBlock {n c : Nat} (sgn : Int) (n1 n2 n3 : Nat) (divide : Bool)
    (data : Fin n → Fin n → V3 → Fin c → Fin c → ℂ) (e : V3 × (Fin n → Fin n → Nat)) :
    V3 × (Fin n × Fin c → Fin n × Fin c → ℂ) :=
  (e.1, fun a b =>
    if divide then
      if e.2 a.1 b.1 ≠ 0 then data a.1 b.1 (meshIndex sgn n1 n2 n3 e.1) a.2 b.2 / (e.2 a.1 b.1 : ℂ)
      else 0
    else data a.1 b.1 (meshIndex sgn n1 n2 n3 e.1) a.2 b.2)

/-- `elphmod/bravais.py` 1344-1409 (`short_range_model`) on `size` processes: lattice vectors with
blocks. Defaults `eps=1e-7`, `nsc=2` of `wigner`. -/
noncomputable def shortRange {n c : Nat} (size : Nat) (n1 n2 n3 : Nat) (at' : Fin 3 → Fin 3 → ℝ)
    (tau : Fin n → Fin 3 → ℝ) (sgn : Int) (divide : Bool)
    (data : Fin n → Fin n → V3 → Fin c → Fin c → ℂ) :
    Option (List (V3 × (Fin n × Fin c → Fin n × Fin c → ℂ))) :=
  Verif.MPI.parMap size (constBlock sgn n1 n2 n3 divide data)
    (wigner size n1 n2 n3 at' tau tau (1e-7) sgn 2)

/-- `elphmod/el.py` 798, `elphmod/elel.py` 370: `np.fft.ifftn(H.conj(), axes=(0, 1, 2)).conj()`. -/
noncomputable def hoppings {n : Nat} (n1 n2 n3 : Nat) (H : V3 → Fin n → Fin n → ℂ) :
    Fin n → Fin n → V3 → Fin 1 → Fin 1 → ℂ :=
  fun a b m _ _ => star (ifftn n1 n2 n3 (fun k => star (H k a b)) m)

/-- `elphmod/el.py` 770-815 (`k2r`): conversion between Ry and eV in the last lines. -/
noncomputable def k2r {n : Nat} (size : Nat) (n1 n2 n3 : Nat) (at' : Fin 3 → Fin 3 → ℝ)
    (r : Fin n → Fin 3 → ℝ) (fft rydberg elRydberg divide : Bool) (Ry : ℝ)
    (H : V3 → Fin n → Fin n → ℂ) : Option (List (V3 × (Fin n → Fin n → ℂ))) :=
  let t := if fft then hoppings n1 n2 n3 H else fun a b m _ _ => H m a b
  (shortRange size n1 n2 n3 at' r 1 divide t).map fun l => l.map fun e =>
    (e.1, fun a b =>
      let x := e.2 (a, 0) (b, 0)
      if rydberg ≠ elRydberg then if rydberg then x * (Ry : ℂ) else x / (Ry : ℂ) else x)

/-- `elphmod/elel.py` 345-378 (`q2r`). -/
noncomputable def elelQ2r {n : Nat} (size : Nat) (n1 n2 n3 : Nat) (at' : Fin 3 → Fin 3 → ℝ)
    (r : Fin n → Fin 3 → ℝ) (fft : Bool) (W : V3 → Fin n → Fin n → ℂ) :
    Option (List (V3 × (Fin n → Fin n → ℂ))) :=
  let t := if fft then hoppings n1 n2 n3 W else fun a b m _ _ => W m a b
  (shortRange size n1 n2 n3 at' r 1 true t).map fun l => l.map fun e =>
    (e.1, fun a b => e.2 (a, 0) (b, 0))

/-- `elphmod/ph.py` 1934-1942: `phid`, with the real part and the square roots of the masses. -/
noncomputable def phid {n : Nat} (n1 n2 n3 : Nat) (divideMass : Bool) (M : Fin n → ℝ)
    (D : V3 → Fin n × Fin 3 → Fin n × Fin 3 → ℂ) : Fin n → Fin n → V3 → Fin 3 → Fin 3 → ℂ :=
  fun a b m x y =>
    let v : ℂ := ((ifftn n1 n2 n3 (fun q => D q (a, x) (b, y)) m).re : ℂ)
    if divideMass then v * (Real.sqrt (M a) : ℂ) * (Real.sqrt (M b) : ℂ) else v

/-- `elphmod/ph.py` 1020-1032 (`divide_by_mass`), as far as one element is concerned. -/
noncomputable def byMass {n : Nat} (M : Fin n → ℝ) (f : Fin n × Fin 3 → Fin n × Fin 3 → ℂ) :
    Fin n × Fin 3 → Fin n × Fin 3 → ℂ :=
  fun a b => f a b / (Real.sqrt (M a.1) : ℂ) / (Real.sqrt (M b.1) : ℂ)

/-- `elphmod/ph.py` 1916-1971 (`q2r`) for given `D_full`, no sum rules. -/
noncomputable def phQ2r {n : Nat} (size : Nat) (n1 n2 n3 : Nat) (at' : Fin 3 → Fin 3 → ℝ)
    (r : Fin n → Fin 3 → ℝ) (M : Fin n → ℝ) (divideMass phDivideMass divide : Bool)
    (D : V3 → Fin n × Fin 3 → Fin n × Fin 3 → ℂ) :
    Option (List (V3 × (Fin n × Fin 3 → Fin n × Fin 3 → ℂ))) :=
  (shortRange size n1 n2 n3 at' r (-1) divide (phid n1 n2 n3 divideMass M D)).map fun l =>
    l.map fun e => (e.1, if phDivideMass then byMass M e.2 else e.2)

/-! ### Electron-phonon coupling -/

/-- `elphmod/elph.py` 1046-1047: `np.fft.ifftn(g.conj()).conj()` over the six mesh axes. -/
noncomputable def couplingDFT (nq1 nq2 nq3 nk1 nk2 nk3 : Nat) (g : V3 → V3 → ℂ) (mq mk : V3) : ℂ :=
  star (ifftn nq1 nq2 nq3 (fun q => ifftn nk1 nk2 nk3 (fun k => star (g q k)) mk) mq)

/-- `elphmod/elph.py` 310-341 (`divide_degeneracy`) for one element, `dk` and `dg` from `q2r`. -/
noncomputable def divideDegeneracy (dk dg : Nat) (x : ℂ) : ℂ :=
  let y := if dk ≠ 0 then x / (dk : ℂ) else 0
  if dg ≠ 0 then y / (dg : ℂ) else 0

/-- `elphmod/elph.py` 1009-1092 (`q2r`) with given orbital positions `r` and `divide_ndegen=True`:
lattice vectors of the displaced atom, lattice vectors of the initial orbital and array `data`.
`τ` are the positions of the atoms, `M` their masses. -/
noncomputable def elphQ2r {n p : Nat} (size : Nat) (nq1 nq2 nq3 nk1 nk2 nk3 : Nat)
    (at' : Fin 3 → Fin 3 → ℝ) (r : Fin n → Fin 3 → ℝ) (τ : Fin p → Fin 3 → ℝ) (M : Fin p → ℝ)
    (divideMass elphDivideMass : Bool) (g : V3 → Fin p × Fin 3 → V3 → Fin n → Fin n → ℂ) :
    List (V3 × (Fin n → Fin p → Nat)) × List (V3 × (Fin n → Fin n → Nat)) ×
      (V3 × (Fin n → Fin p → Nat) → Fin p × Fin 3 → V3 × (Fin n → Fin n → Nat) → Fin n → Fin n → ℂ) :=
  (wigner size nq1 nq2 nq3 at' r τ (1e-7) 1 2, wigner size nk1 nk2 nk3 at' r r (1e-7) 1 2,
    fun eg x ek a b =>
      let v := divideDegeneracy (ek.2 a b) (eg.2 a x.1)
        (couplingDFT nq1 nq2 nq3 nk1 nk2 nk3 (fun q k => g q x k a b)
          (meshIndex 1 nq1 nq2 nq3 eg.1) (meshIndex 1 nk1 nk2 nk3 ek.1))
      if divideMass && !elphDivideMass then v * (Real.sqrt (M x.1) : ℂ)
      else if !divideMass && elphDivideMass then v / (Real.sqrt (M x.1) : ℂ) else v)

/-- `elphmod/elph.py` 126-157: both Fourier sums of `Model.g` for lattice vectors `Rg`, `Rk` with
blocks `data` (one process, no long-range terms, orbital and displacement basis). -/
noncomputable def coupling {A B X O : Type} (Rg : List (V3 × A)) (Rk : List (V3 × B))
    (data : V3 × A → X → V3 × B → O → O → ℂ) (q k : Fin 3 → ℝ) (x : X) (a b : O) : ℂ :=
  (Rk.map fun ek => (Rg.map fun eg => data eg x ek a b * phase eg.1 q).sum * phase ek.1 k).sum

/-! ### `Fourier_interpolation` -/

/-- `elphmod/bravais.py` 1443: `transform[i, j]`. -/
noncomputable def transform (N : Nat) (sign : ℝ) (i j : Int) : ℂ :=
  Complex.exp ((sign : ℂ) * (2 * Complex.I) * (Real.pi : ℂ) / (N : ℂ) * ((i : ℂ) * (j : ℂ))) / (N : ℂ)

/-- `elphmod/bravais.py` 1445: `np.einsum('ni,ij...,jm->nm...', transform, data, transform)`. -/
noncomputable def coefficients (N : Nat) (sign : ℝ) (data : Int → Int → ℂ) (n m : Int) : ℂ :=
  ((meshPoints N).map fun p => transform N sign n p.1 * data p.1 p.2 * transform N sign p.2 m).sum

/-- `180 - angle`. -/
def flipAngle : Angle → Angle
  | .a60 => .a120
  | .a90 => .a90
  | .a120 => .a60

/-- `elphmod/bravais.py` 1447-1477: points with coefficients, without those skipped in line 1456
(`thr = 1e-6`). Scalar data, i.e., no further axes. -/
noncomputable def interpolationTerms (N : Nat) (angle : Angle) (sign : ℝ) (thr : ℝ)
    (data : Int → Int → ℂ) : List (P × ℂ) :=
  (meshPoints N).flatMap fun p =>
    if ‖coefficients N sign data p.1 p.2‖ < thr then []
    else
      let images := toVoronoi p (N : Int) (flipAngle angle) (0 : ℝ) 0 0
      images.toList.map fun q => (q, coefficients N sign data p.1 p.2 / (images.card : ℂ))

/-- `elphmod/bravais.py` 1479-1484: the sum of which `interpolant` returns the real part. -/
noncomputable def interpolantSum (N : Nat) (sign : ℝ) (terms : List (P × ℂ)) (x y : ℝ) : ℂ :=
  (terms.map fun e => Complex.exp (-(sign : ℂ) * (2 * Complex.I) * (Real.pi : ℂ) / (N : ℂ) *
    ((e.1.1 : ℂ) * (x : ℂ) + (e.1.2 : ℂ) * (y : ℂ))) * e.2).sum

/-- `elphmod/bravais.py` 1411-1489 (`Fourier_interpolation`) with `function=True`. -/
noncomputable def fourierInterpolation (N : Nat) (angle : Angle) (sign : ℝ) (data : Int → Int → ℂ)
    (x y : ℝ) : ℝ :=
  (interpolantSum N sign (interpolationTerms N angle sign (1e-6) data) x y).re

end Verif.Fourier
