import Mathlib.Analysis.SpecialFunctions.Gaussian.GaussianIntegral
import Mathlib.Analysis.SpecialFunctions.Trigonometric.Arctan
import Mathlib.Analysis.SpecialFunctions.Trigonometric.DerivHyp
import Mathlib.Analysis.Complex.Trigonometric
import Mathlib.Data.Real.Sign

/-!
# Model of `elphmod/occupations.py`

Real arguments, exact real arithmetic. `erf` is external (SciPy or `math`); it is taken to be the error
function.
-/

namespace Verif.Occ

/-- The error function. -/
noncomputable def erf (x : ℝ) : ℝ := 2 / Real.sqrt Real.pi * ∫ t in (0 : ℝ)..x, Real.exp (-t * t)

/-- `elphmod/occupations.py` 15. -/
noncomputable def xmax : ℝ := 709

/-- `np.sign(x.real) * np.minimum(abs(x.real), xmax)`. -/
noncomputable def clip (x : ℝ) : ℝ := Real.sign x * min |x| xmax

/-- `elphmod/occupations.py` 17-23. -/
noncomputable def boseEinstein (x : ℝ) : ℝ := 1 / (Real.exp (min x xmax) - 1)

/-- `elphmod/occupations.py` 25-33. -/
noncomputable def fermiDirac (x : ℝ) : ℝ := 1 / (Real.exp (min x xmax) + 1)

/-- `elphmod/occupations.py` 35-41. -/
noncomputable def fermiDiracDelta (x : ℝ) : ℝ := 1 / (2 * Real.cosh (min |x| xmax) + 2)

/-- `elphmod/occupations.py` 43-49. -/
noncomputable def fermiDiracDeltaPrime (x : ℝ) : ℝ :=
  -Real.sinh (clip x) / (2 * (Real.cosh (clip x) + 1) ^ 2)

/-- `elphmod/occupations.py` 51-59. -/
noncomputable def fermiDiracEntropy (x : ℝ) : ℝ :=
  clip x * (fermiDirac (clip x) - 1) - Real.log (fermiDirac (clip x))

/-- `elphmod/occupations.py` 65-68. -/
noncomputable def gauss (x : ℝ) : ℝ := (1 - erf x) / 2

/-- `elphmod/occupations.py` 70-73. -/
noncomputable def gaussDelta (x : ℝ) : ℝ := Real.exp (-x * x) / Real.sqrt Real.pi

/-- `elphmod/occupations.py` 75-78. -/
noncomputable def gaussDeltaPrime (x : ℝ) : ℝ := -2 * x * Real.exp (-x * x) / Real.sqrt Real.pi

/-- `elphmod/occupations.py` 80-83. -/
noncomputable def gaussEntropy (x : ℝ) : ℝ := gaussDelta x / 2

/-- `elphmod/occupations.py` 89-94. -/
noncomputable def marzariVanderbilt (x : ℝ) : ℝ :=
  let y := x + 1 / Real.sqrt 2
  (1 - erf y) / 2 + Real.exp (-y * y) / Real.sqrt (2 * Real.pi)

/-- `elphmod/occupations.py` 96-101. -/
noncomputable def marzariVanderbiltDelta (x : ℝ) : ℝ :=
  let y := x + 1 / Real.sqrt 2
  (Real.sqrt 2 * y + 1) * Real.exp (-y * y) / Real.sqrt Real.pi

/-- `elphmod/occupations.py` 103-109. -/
noncomputable def marzariVanderbiltDeltaPrime (x : ℝ) : ℝ :=
  let y := x + 1 / Real.sqrt 2
  (Real.sqrt 2 - 2 * y * (Real.sqrt 2 * y + 1)) * Real.exp (-y * y) / Real.sqrt Real.pi

/-- `elphmod/occupations.py` 111-116. -/
noncomputable def marzariVanderbiltEntropy (x : ℝ) : ℝ :=
  let y := x + 1 / Real.sqrt 2
  y * Real.exp (-y * y) / Real.sqrt (2 * Real.pi)

/-- `elphmod/occupations.py` 122-137: remaining elements of the generator with loop variable `n` and
`rem` rounds left. -/
def hermiteGen (x : ℝ) : Nat → Nat → ℝ → ℝ → List ℝ
  | 0, _, _, _ => []
  | rem + 1, n, h, H => h :: hermiteGen x rem (n + 1) (2 * x * h - 2 * n * H) h

/-- `elphmod/occupations.py` 122-137 (`hermite_polynomials`). -/
def hermitePolynomials (x : ℝ) (N : Nat) : List ℝ := hermiteGen x N 0 1 0

/-- `elphmod/occupations.py` 160-162: `a *= -1; next(h)`; `none` is `StopIteration`. -/
def mpSkip : Nat → ℝ → List ℝ → Option (ℝ × List ℝ)
  | 0, a, h => some (a, h)
  | _ + 1, _, [] => none
  | d + 1, a, _ :: h => mpSkip d (a * -1) h

/-- `elphmod/occupations.py` 164-168: `m` rounds left, next `n`. -/
noncomputable def mpLoop : Nat → Nat → ℝ → ℝ → List ℝ → Option ℝ
  | 0, _, _, s, _ => some s
  | m + 1, n, a, s, _ :: y :: h => mpLoop m (n + 1) (a / (-4 * n)) (s + a / (-4 * n) * y) h
  | _ + 1, _, _, _, _ => none

/-- `elphmod/occupations.py` 139-170 (`methfessel_paxton_term`). -/
noncomputable def mpTerm (x : ℝ) (order diff : Nat) : Option ℝ :=
  (mpSkip diff 1 (hermitePolynomials x 100)).bind fun p =>
    (mpLoop order 1 p.1 0 p.2).map (· * gaussDelta x)

/-- `elphmod/occupations.py` 172-176; `none` for an exception. -/
noncomputable def methfesselPaxton (order : Nat) (x : ℝ) : Option ℝ := (mpTerm x order 0).map (gauss x + ·)

/-- `elphmod/occupations.py` 178-182. -/
noncomputable def methfesselPaxtonDelta (order : Nat) (x : ℝ) : Option ℝ :=
  (mpTerm x order 1).map (gaussDelta x - ·)

/-- `elphmod/occupations.py` 184-188. -/
noncomputable def methfesselPaxtonDeltaPrime (order : Nat) (x : ℝ) : Option ℝ :=
  (mpTerm x order 2).map (gaussDeltaPrime x - ·)

/-- `elphmod/occupations.py` 190-197; `none` for `NotImplementedError`. -/
noncomputable def methfesselPaxtonEntropy (order : Nat) (x : ℝ) : Option ℝ :=
  if order ≠ 1 then none else (mpTerm x order 1).map (-0.5 * ·)

/-- `elphmod/occupations.py` 204-208. -/
noncomputable def doubleFermiDirac (d x : ℝ) : ℝ := (fermiDirac (x - d) + fermiDirac (x + d)) / 2

/-- `elphmod/occupations.py` 210-214. -/
noncomputable def doubleFermiDiracDelta (d x : ℝ) : ℝ := (fermiDiracDelta (x - d) + fermiDiracDelta (x + d)) / 2

/-- `elphmod/occupations.py` 216-220. -/
noncomputable def doubleFermiDiracDeltaPrime (d x : ℝ) : ℝ :=
  (fermiDiracDeltaPrime (x - d) + fermiDiracDeltaPrime (x + d)) / 2

/-- `elphmod/occupations.py` 222-228. -/
noncomputable def doubleFermiDiracEntropy (d x : ℝ) : ℝ :=
  (fermiDiracEntropy (x - d) + fermiDiracEntropy (x + d) + d * (fermiDirac (x - d) - fermiDirac (x + d))) / 2

/-- `dy = (x < 0) * two_fermi_dirac.d`. -/
noncomputable def twoDy (d x : ℝ) : ℝ := if x < 0 then d else 0

/-- `dx = 2 * dy - two_fermi_dirac.d`. -/
noncomputable def twoDx (d x : ℝ) : ℝ := 2 * twoDy d x - d

/-- `elphmod/occupations.py` 235-241. -/
noncomputable def twoFermiDirac (d x : ℝ) : ℝ := fermiDirac (x + twoDx d x)

/-- `elphmod/occupations.py` 243-249. -/
noncomputable def twoFermiDiracDelta (d x : ℝ) : ℝ := fermiDiracDelta (x + twoDx d x)

/-- `elphmod/occupations.py` 251-257. -/
noncomputable def twoFermiDiracDeltaPrime (d x : ℝ) : ℝ := fermiDiracDeltaPrime (x + twoDx d x)

/-- `elphmod/occupations.py` 259-265. -/
noncomputable def twoFermiDiracEntropy (d x : ℝ) : ℝ :=
  fermiDiracEntropy (x + twoDx d x) - twoDx d x * fermiDirac (x + twoDx d x) + twoDy d x

/-- `elphmod/occupations.py` 272-281. -/
noncomputable def lorentz (x : ℝ) : ℝ := 0.5 - Real.arctan (x / Real.pi) / Real.pi

/-- `elphmod/occupations.py` 283-286. -/
noncomputable def lorentzDelta (x : ℝ) : ℝ := 1 / (x * x + Real.pi * Real.pi)

/-- `elphmod/occupations.py` 288-291. -/
noncomputable def lorentzDeltaPrime (x : ℝ) : ℝ := -2 * x / (x * x + Real.pi * Real.pi) ^ 2

/-- `elphmod/occupations.py` 296-299. -/
noncomputable def heaviside (x : ℝ) : ℝ := 0.5 - 0.5 * Real.sign x

/-- `elphmod/occupations.py` 301-311. -/
noncomputable def heavisideDelta (x : ℝ) : WithTop ℝ := if x = 0 then ⊤ else 0

/-- `elphmod/occupations.py` 313-323 for `x ≠ 0` (at zero, the sign of the floating-point zero counts). -/
noncomputable def heavisideDeltaPrime (_ : ℝ) : ℝ := 0

/-- `elphmod/occupations.py` 325-328. -/
noncomputable def heavisideEntropy (_ : ℝ) : ℝ := 0

/-- `1j * (2 * n + 1) * np.pi`. -/
noncomputable def inu (n : Nat) : ℂ := Complex.I * (2 * (n : ℂ) + 1) * (Real.pi : ℂ)

/-- `elphmod/occupations.py` 334-339. -/
noncomputable def matsubara (nmats : Nat) (x : ℝ) : ℝ :=
  0.5 + 2 * (∑ n ∈ Finset.range nmats, (inu n - (x : ℂ)) ^ (-1 : ℤ)).re

/-- `elphmod/occupations.py` 341-346. -/
noncomputable def matsubaraDelta (nmats : Nat) (x : ℝ) : ℝ :=
  -2 * (∑ n ∈ Finset.range nmats, (inu n - (x : ℂ)) ^ (-2 : ℤ)).re

/-- `elphmod/occupations.py` 348-353. -/
noncomputable def matsubaraDeltaPrime (nmats : Nat) (x : ℝ) : ℝ :=
  -4 * (∑ n ∈ Finset.range nmats, (inu n - (x : ℂ)) ^ (-3 : ℤ)).re

/-! ### `smearing` -/

/-- The functions of `elphmod/occupations.py` that can be selected, or a function passed by the user. -/
inductive Smearing (F : Type) where
  | gauss
  | methfesselPaxton
  | marzariVanderbilt
  | fermiDirac
  | lorentz
  | heaviside
  | custom (f : F)
deriving DecidableEq

/-- Argument of `smearing`: string or anything else. -/
inductive Arg (F : Type) where
  | str (s : String)
  | other (f : F)

/-- `elphmod/occupations.py` 358-391 (`smearing`); `none` is Python's `None`, returned implicitly at the
end. -/
def smearing {F : Type} : Arg F → Option (Smearing F)
  | .other f => some (.custom f)
  | .str s =>
    let name := s.toLower
    if name ∈ ["gaussian", "gauss"] then some .gauss
    else if name ∈ ["methfessel-paxton", "m-p", "mp"] then some .methfesselPaxton
    else if name ∈ ["marzari-vanderbilt", "cold", "m-v", "mv"] then some .marzariVanderbilt
    else if name ∈ ["fermi-dirac", "f-d", "fd"] then some .fermiDirac
    else if name ∈ ["lorentzian", "lorentz"] then some .lorentz
    else if name ∈ ["heaviside"] then some .heaviside
    else none

/-! ### `find_Fermi_level` -/

/-- `fx.sum()`. -/
noncomputable def electrons {N : Nat} (f : ℝ → ℝ) (e : Fin N → ℝ) (kT mu : ℝ) : ℝ := ∑ i, f ((e i - mu) / kT)

/-- `elphmod/occupations.py` 436-442: the array `w`. -/
noncomputable def weights {N : Nat} (f : ℝ → ℝ) (delta0 : ℝ) (e : Fin N → ℝ) (kT eps mu : ℝ) (i : Fin N) : ℝ :=
  if |e i - mu| > eps then (f 0 - f ((e i - mu) / kT)) / (e i - mu) else delta0 / kT

/-- `elphmod/occupations.py` 447. -/
noncomputable def update {N : Nat} (f : ℝ → ℝ) (delta0 : ℝ) (e : Fin N → ℝ) (kT eps n mu : ℝ) : ℝ :=
  (n - N * f 0 + ∑ i, e i * weights f delta0 e kT eps mu i) / ∑ i, weights f delta0 e kT eps mu i

/-- `elphmod/occupations.py` 433-447: the loop, at most `fuel` rounds (`none`: not yet returned). -/
noncomputable def fermiLoop {N : Nat} (f : ℝ → ℝ) (delta0 : ℝ) (e : Fin N → ℝ) (kT eps n tol : ℝ) :
    Nat → ℝ → Option ℝ
  | 0, _ => none
  | fuel + 1, mu =>
    if |electrons f e kT mu - n| < tol then some mu
    else fermiLoop f delta0 e kT eps n tol fuel (update f delta0 e kT eps n mu)

/-- `elphmod/occupations.py` 428-429: initial guess; `lo` and `hi` are `e.min()` and `e.max()`. -/
noncomputable def guess (N : Nat) (lo hi n : ℝ) : ℝ := (lo * (N - n) + hi * n) / N

/-- `elphmod/occupations.py` 393-447 (`find_Fermi_level`) for `nk * bands` energies. -/
noncomputable def findFermiLevel (nk bands : Nat) (f : ℝ → ℝ) (delta0 : ℝ) (e : Fin (nk * bands) → ℝ)
    (lo hi kT eps n tol : ℝ) (mu : Option ℝ) (fuel : Nat) : Option ℝ :=
  let scale : ℝ := 0.5 * ((nk * bands : Nat) : ℝ) / (bands : ℝ)
  let n := n * scale
  let tol := tol * scale
  fermiLoop f delta0 e kT eps n tol fuel (mu.getD (guess (nk * bands) lo hi n))

/-- `elphmod/occupations.py` 492-500: the loop of `find_Fermi_level_simple`. -/
noncomputable def simpleLoop {N : Nat} (f : ℝ → ℝ) (e : Fin N → ℝ) (kT damp n tol : ℝ) : Nat → ℝ → Option ℝ
  | 0, _ => none
  | fuel + 1, mu =>
    if |electrons f e kT mu - n| < tol then some mu
    else simpleLoop f e kT damp n tol fuel (mu + (n / electrons f e kT mu - 1) * damp)

/-- `elphmod/occupations.py` 451-500 (`find_Fermi_level_simple`). -/
noncomputable def findFermiLevelSimple (nk bands : Nat) (f : ℝ → ℝ) (e : Fin (nk * bands) → ℝ)
    (lo hi kT damp n tol : ℝ) (mu : Option ℝ) (fuel : Nat) : Option ℝ :=
  let scale : ℝ := 0.5 * ((nk * bands : Nat) : ℝ) / (bands : ℝ)
  let n := n * scale
  let tol := tol * scale
  simpleLoop f e kT damp n tol fuel (mu.getD (guess (nk * bands) lo hi n))

end Verif.Occ
