import Verif.Fourier.Lemmas
import Verif.Lattice.Model
import Verif.Bravais.Model
import Mathlib.Algebra.Order.Floor.Semiring
import Mathlib.Analysis.SpecialFunctions.Trigonometric.Basic

/-!
# Model of sum rules, masses, long-range terms and polarization in `elphmod/ph.py`

Index `3 * na + x` is the pair `(na, x)`. Arrays are functions; the first process computes and broadcasts.
-/

namespace Verif.Phon

open Verif.Voronoi (V3 mesh3)
open Verif.Lattice (irange)
open Verif.Fourier (bloch meshK phQ2r)

/-! ### Simple sum rules, masses -/

/-- Force constants as read by `read_flfrc`: `phid[na1, na2, m1, m2, m3]`. -/
abbrev Phid (n : Nat) := Fin n → Fin n → V3 → Fin 3 → Fin 3 → ℂ

/-- One round of the loop in `elphmod/ph.py` 1637-1644 (`asr`). -/
def asrStep {n : Nat} (n1 n2 n3 : Nat) (phid : Phid n) (na1 : Fin n) : Phid n := fun a b m x y =>
  if a = na1 ∧ b = na1 ∧ m = (0, 0, 0) then
    -((List.finRange n).flatMap fun na2 => ((mesh3 n1 n2 n3).filter fun m =>
      na1 ≠ na2 ∨ m.1 ≠ 0 ∨ m.2.1 ≠ 0 ∨ m.2.2 ≠ 0).map fun m => phid na1 na2 m x y).sum
  else phid a b m x y

/-- `elphmod/ph.py` 1632-1644 (`asr`) for an array of shape `(n, n, n1, n2, n3, 3, 3)`. -/
def asr {n : Nat} (n1 n2 n3 : Nat) (phid : Phid n) : Phid n :=
  (List.finRange n).foldl (asrStep n1 n2 n3) phid

/-- `elphmod/ph.py` 1646-1649 (`zasr`). -/
noncomputable def zasr {n : Nat} (Z : Fin n → Fin 3 → Fin 3 → ℝ) : Fin n → Fin 3 → Fin 3 → ℝ :=
  fun na x y => Z na x y - (∑ nb, Z nb x y) / n

/-- One round of the loop in `elphmod/ph.py` 1030-1032. -/
noncomputable def massStep {n : Nat} (amass : Fin n → ℝ) (dyn : Fin n × Fin 3 → Fin n × Fin 3 → ℂ) (na : Fin n) :
    Fin n × Fin 3 → Fin n × Fin 3 → ℂ :=
  let dyn : Fin n × Fin 3 → Fin n × Fin 3 → ℂ :=
    fun a b => if a.1 = na then dyn a b / (Real.sqrt (amass na) : ℂ) else dyn a b
  fun a b => if b.1 = na then dyn a b / (Real.sqrt (amass na) : ℂ) else dyn a b

/-- `elphmod/ph.py` 1020-1032 (`divide_by_mass`). -/
noncomputable def divideByMass {n : Nat} (amass : Fin n → ℝ) (dyn : Fin n × Fin 3 → Fin n × Fin 3 → ℂ) :
    Fin n × Fin 3 → Fin n × Fin 3 → ℂ :=
  (List.finRange n).foldl (massStep amass) dyn

/-! ### `sum_rule_correction` -/

/-- `(u * v).sum()`. -/
def dotp {ι : Type} [Fintype ι] (u v : ι → ℝ) : ℝ := ∑ i, u i * v i

open Classical in
/-- `elphmod/ph.py` 1757-1759: the inner loop over `j`; the list contains `c[j]` and `cc[j]`. -/
noncomputable def gsInner {ι : Type} [Fintype ι] (eps : ℝ) (don : List ((ι → ℝ) × ℝ)) (v : ι → ℝ) : ι → ℝ :=
  don.foldl (fun v p => if p.2 > eps then fun i => v i - dotp p.1 v / p.2 * p.1 i else v) v

/-- `elphmod/ph.py` 1755-1760: orthogonalization. -/
noncomputable def gramSchmidt {ι : Type} [Fintype ι] (eps : ℝ) (cs : List (ι → ℝ)) : List ((ι → ℝ) × ℝ) :=
  cs.foldl (fun don c => don ++ [(gsInner eps don c, dotp (gsInner eps don c) (gsInner eps don c))]) []

/-- Index `n, k, x, l, y` of the force constants. -/
abbrev Index (nR nat : Nat) := Fin nR × (Fin nat × Fin 3) × (Fin nat × Fin 3)

/-- `elphmod/ph.py` 1722-1729: constraint for the acoustic sum rule. -/
def asrConstraint {nR nat : Nat} (k : Fin nat) (x y : Fin 3) : Index nR nat → ℝ := fun i =>
  if i.2.1 = (k, x) ∧ i.2.2.2 = y then 1 else 0

/-- `elphmod/ph.py` 1731-1740: constraint for the rotation sum rule; `R` and `r` are Cartesian. -/
noncomputable def rsrConstraint {nR nat : Nat} (R : Fin nR → Fin 3 → ℝ) (r : Fin nat → Fin 3 → ℝ) (k : Fin nat)
    (x1 x2 y : Fin 3) : Index nR nat → ℝ := fun i =>
  (if i.2.1 = (k, x1) ∧ i.2.2.2 = y then R i.1 x2 + r i.2.2.1 x2 else 0) -
    (if i.2.1 = (k, x2) ∧ i.2.2.2 = y then R i.1 x1 + r i.2.2.1 x1 else 0)

/-- `elphmod/ph.py` 1718-1740: list of constraints. -/
noncomputable def constraints {nR nat : Nat} (asr rsr : Bool) (R : Fin nR → Fin 3 → ℝ) (r : Fin nat → Fin 3 → ℝ) :
    List (Index nR nat → ℝ) :=
  (if asr then (List.finRange nat).flatMap fun k => (List.finRange 3).flatMap fun x =>
    (List.finRange 3).map fun y => asrConstraint k x y else []) ++
  (if rsr then (List.finRange nat).flatMap fun k => (List.finRange 3).flatMap fun x1 =>
    (List.finRange 3).flatMap fun x2 => (List.finRange 3).map fun y => rsrConstraint R r k x1 x2 y else [])

/-- `elphmod/ph.py` 1744-1745: `np.argmax(np.all(ph.R == -ph.R[n], axis=1))`, the first index of `-R[n]`, or zero if
there is none. -/
def minusR {nR : Nat} (R : Fin nR → V3) (n : Fin nR) : Fin nR :=
  (((List.finRange nR).find? fun m => R m = (-(R n).1, -(R n).2.1, -(R n).2.2))).getD ⟨0, n.pos⟩

/-- `elphmod/ph.py` 1747-1748. -/
def symmetrizeConstraint {nR nat : Nat} (minus : Fin nR → Fin nR) (c : Index nR nat → ℝ) : Index nR nat → ℝ :=
  fun i => c i + c (minus i.1, i.2.2, i.2.1)

/-- `elphmod/ph.py` 1651-1781 (`sum_rule_correction`): `Rint` are the lattice vectors in units of primitive vectors,
`R` those in Cartesian coordinates. -/
noncomputable def sumRuleCorrection {nR nat : Nat} (asr rsr : Bool) (eps : ℝ) (Rint : Fin nR → V3)
    (R : Fin nR → Fin 3 → ℝ) (r : Fin nat → Fin 3 → ℝ) (divideMass : Bool) (M : Fin nat → ℝ)
    (data : Index nR nat → ℝ) : Index nR nat → ℝ :=
  let C : Index nR nat → ℝ := fun i =>
    if divideMass then data i * Real.sqrt (M i.2.1.1) * Real.sqrt (M i.2.2.1) else data i
  let c := (constraints asr rsr R r).map (symmetrizeConstraint (minusR Rint))
  let C := (((gramSchmidt eps (c ++ [C])).getLast?).map Prod.fst).getD C
  fun i => if divideMass then C i / Real.sqrt (M i.2.1.1) / Real.sqrt (M i.2.2.1) else C i

/-! ### `sgnsqrt`, `polarization` -/

/-- `elphmod/ph.py` 1783-1786 (`sgnsqrt`). -/
noncomputable def sgnsqrt (w2 : ℝ) : ℝ := (SignType.sign w2 : ℝ) * Real.sqrt |w2|

open Classical in
/-- `elphmod/ph.py` 1805-1823 (`polarization`) for one q point and band: `q` are the coordinates of the q point, `e x`,
`e y`, `e z` the components of the eigenvector for the atoms. -/
noncomputable def polarization {n : Nat} (b1 b2 : Fin 2 → ℝ) (q : Fin 2 → ℝ) (e : Fin n → Fin 3 → ℂ) :
    Fin 3 → ℝ :=
  let q : Fin 2 → ℝ := fun i => q 0 * b1 i + q 1 * b2 i
  let Q := Real.sqrt (q 0 * q 0 + q 1 * q 1)
  let centered := Q < 1e-10
  let q : Fin 2 → ℝ := if centered then ![1, 0] else fun i => q i / Q
  let L := ∑ na, ‖e na 0 * (q 0 : ℂ) + e na 1 * (q 1 : ℂ)‖ ^ 2
  let T := ∑ na, ‖e na 0 * (q 1 : ℂ) - e na 1 * (q 0 : ℂ)‖ ^ 2
  let Z := ∑ na, ‖e na 2‖ ^ 2
  if centered then ![(L + T) / 2, (L + T) / 2, Z] else ![L, T, Z]

/-! ### Long-range terms -/

/-- Attributes used for long-range terms. -/
structure Polar (n : Nat) where
  a : Fin 3 → Fin 3 → ℝ
  b : Fin 3 → Fin 3 → ℝ
  r : Fin n → Fin 3 → ℝ
  eps : Fin 3 → Fin 3 → ℝ
  Z : Fin n → Fin 3 → Fin 3 → ℝ
  Q : Option (Fin n → Fin 3 → Fin 3 → Fin 3 → ℝ)
  M : Fin n → ℝ
  lr2d : Bool
  L : Option ℝ
  perp : Bool
  divideMass : Bool
  alpha : ℝ

variable {n : Nat}

/-- Norm of a vector. -/
noncomputable def norm3 (v : Fin 3 → ℝ) : ℝ := Real.sqrt (∑ x, v x ^ 2)

/-- `elphmod/ph.py` 360-362: `r_eff`. -/
noncomputable def rEff (p : Polar n) (x y : Fin 3) : ℝ := (p.eps x y - if x = y then 1 else 0) * (1 / p.b 2 2) / 2

/-- `elphmod/ph.py` 358, 364-368: `prefactor`. -/
noncomputable def prefactor (p : Polar n) : ℝ :=
  let c := Verif.Bravais.cross (p.a 0) (p.a 1)
  if p.lr2d then 2 * Real.pi * 2 / norm3 c
  else 4 * Real.pi * 2 / |∑ x, p.a 0 x * Verif.Bravais.cross (p.a 1) (p.a 2) x|

/-- `elphmod/ph.py` 370-372: `scale`. -/
noncomputable def scale (p : Polar n) : ℝ := 4 * p.alpha * (2 * Real.pi / norm3 (p.a 0)) ^ 2

/-- `elphmod/ph.py` 374-378: `nr`. -/
noncomputable def nr (p : Polar n) (Gmax : ℝ) (G2d : Bool) (i : Fin 3) : Nat :=
  if i = 2 ∧ (p.lr2d || G2d) then 0
  else 1 + Nat.floor (Real.sqrt (scale p * Gmax) / norm3 fun x => 2 * Real.pi * p.b i x)

/-- `KeK`, `elphmod/ph.py` 388-391 and 442-445. -/
noncomputable def keK (p : Polar n) (K : Fin 3 → ℝ) : ℝ :=
  if p.lr2d then ∑ x, K x ^ 2 else ∑ x, ∑ y, K x * p.eps x y * K y

/-- `elphmod/ph.py` 385-386. -/
noncomputable def gVec (p : Polar n) (m : V3) (x : Fin 3) : ℝ :=
  2 * Real.pi * ((m.1 : ℝ) * p.b 0 x + (m.2.1 : ℝ) * p.b 1 x + (m.2.2 : ℝ) * p.b 2 x)

/-- Loops over `m1`, `m2`, `m3`, `elphmod/ph.py` 382-384. -/
def box (N : Fin 3 → Nat) : List V3 :=
  (irange (-(N 0 : Int)) (N 0 + 1)).flatMap fun m1 => (irange (-(N 1 : Int)) (N 1 + 1)).flatMap fun m2 =>
    (irange (-(N 2 : Int)) (N 2 + 1)).map fun m3 => (m1, m2, m3)

open Classical in
/-- `elphmod/ph.py` 380-396: reciprocal lattice vectors. -/
noncomputable def gList (p : Polar n) (Gmax : ℝ) (G2d : Bool) : List (Fin 3 → ℝ) :=
  ((box (nr p Gmax G2d)).filter fun m => decide (keK p (gVec p m) < scale p * Gmax)).map (gVec p)

/-- `f`, `elphmod/ph.py` 457-458. -/
noncomputable def tanhFactor (p : Polar n) (l : ℝ) (K : Fin 3 → ℝ) : ℝ := 1 - Real.tanh (Real.sqrt (keK p K) * l / 2)

/-- `KrK`, `elphmod/ph.py` 452-454. -/
noncomputable def krK (p : Polar n) (K : Fin 3 → ℝ) : ℝ :=
  ∑ x : Fin 2, ∑ y : Fin 2, K (x.castLE (by omega)) * rEff p (x.castLE (by omega)) (y.castLE (by omega)) *
    K (y.castLE (by omega))

/-- `factor`, `elphmod/ph.py` 456-474. -/
noncomputable def factor (p : Polar n) (K : Fin 3 → ℝ) : ℝ :=
  match p.lr2d, p.L with
  | true, some l => prefactor p * tanhFactor p l K / Real.sqrt (keK p K) /
      (1 + tanhFactor p l K / Real.sqrt (keK p K) * krK p K)
  | true, none => prefactor p * Real.exp (-keK p K / scale p) / (Real.sqrt (keK p K) + krK p K)
  | false, _ => prefactor p * Real.exp (-keK p K / scale p) / keK p K

/-- `factor_perp`, `elphmod/ph.py` 463-467. -/
noncomputable def factorPerp (p : Polar n) (l : ℝ) (K : Fin 3 → ℝ) : ℝ :=
  -prefactor p * tanhFactor p l K / Real.sqrt (keK p K) /
    (1 - tanhFactor p l K * Real.sqrt (keK p K) * rEff p 2 2)

/-- `exp`, `elphmod/ph.py` 476. -/
noncomputable def expFactor (p : Polar n) (K : Fin 3 → ℝ) (na : Fin n) : ℂ :=
  Complex.exp (-Complex.I * ((∑ x, K x * p.r na x : ℝ) : ℂ))

/-- `dot`, `elphmod/ph.py` 479-486; `z` and `q` are the (possibly mass-weighted) Born charges and quadrupoles. -/
noncomputable def dotFactor (p : Polar n) (z : Fin n → Fin 3 → Fin 3 → ℝ)
    (q : Option (Fin n → Fin 3 → Fin 3 → Fin 3 → ℝ)) (K : Fin 3 → ℝ) (na : Fin n) (u : Fin 3) : ℂ :=
  Complex.I * ((∑ e, K e * z na e u : ℝ) : ℂ) + match q with
  | none => 0
  | some q => ((0.5 * ∑ x, ∑ y, K x * q na u x y * K y : ℝ) : ℂ) -
      if p.lr2d && p.L.isSome then ((0.5 * (Real.sqrt (keK p K) ^ 2 * q na u 2 2) : ℝ) : ℂ) else 0

/-- `dot_perp`, `elphmod/ph.py` 491-495. -/
noncomputable def dotPerp (p : Polar n) (z : Fin n → Fin 3 → Fin 3 → ℝ)
    (q : Option (Fin n → Fin 3 → Fin 3 → Fin 3 → ℝ)) (K : Fin 3 → ℝ) (na : Fin n) (u : Fin 3) : ℂ :=
  Complex.I * ((Real.sqrt (keK p K) * z na 2 u : ℝ) : ℂ) + match q with
  | none => 0
  | some q => ((∑ y : Fin 2, Real.sqrt (keK p K) * q na u 2 (y.castLE (by omega)) * K (y.castLE (by omega)) : ℝ) : ℂ)

open Classical in
/-- `elphmod/ph.py` 415-503 (`generate_long_range`): pairs of `factor` and `vector`; `use = KeK > eps`. -/
noncomputable def generateLongRange (p : Polar n) (G : List (Fin 3 → ℝ)) (z : Fin n → Fin 3 → Fin 3 → ℝ)
    (qu : Option (Fin n → Fin 3 → Fin 3 → Fin 3 → ℝ)) (q : Fin 3 → ℝ) : List (ℝ × (Fin n × Fin 3 → ℂ)) :=
  let K := (G.map fun g => fun x => g x + q 0 * p.b 0 x + q 1 * p.b 1 x + q 2 * p.b 2 x).filter fun K =>
    decide (keK p K > 1e-10)
  (K.map fun K => (factor p K, fun i => dotFactor p z qu K i.1 i.2 * expFactor p K i.1)) ++
    match p.lr2d, p.L, p.perp with
    | true, some l, true => K.map fun K => (factorPerp p l K, fun i => dotPerp p z qu K i.1 i.2 * expFactor p K i.1)
    | _, _, _ => []

/-- `np.einsum('g,gi,gj->ij', factor, vector.conj(), vector)`: `elphmod/ph.py` 179-180. -/
noncomputable def einsumLR (l : List (ℝ × (Fin n × Fin 3 → ℂ))) (i j : Fin n × Fin 3) : ℂ :=
  (l.map fun t => (t.1 : ℂ) * star (t.2 i) * t.2 j).sum

/-- `D0_lr`, `elphmod/ph.py` 401-411. -/
noncomputable def D0lr (p : Polar n) (G : List (Fin 3 → ℝ)) (i j : Fin n × Fin 3) : ℂ :=
  if i.1 = j.1 then
    let d := -∑ na2, einsumLR (generateLongRange p G p.Z p.Q fun _ => 0) i (na2, j.2)
    if p.divideMass then d / (p.M i.1 : ℂ) else d
  else 0

/-- `z` and `q` after `elphmod/ph.py` 409-413. -/
noncomputable def zMass (p : Polar n) (na : Fin n) (e u : Fin 3) : ℝ :=
  if p.divideMass then p.Z na e u / Real.sqrt (p.M na) else p.Z na e u

/-- `q` after `elphmod/ph.py` 412-413. -/
noncomputable def qMass (p : Polar n) : Option (Fin n → Fin 3 → Fin 3 → Fin 3 → ℝ) :=
  p.Q.map fun Q => fun na u x y => if p.divideMass then Q na u x y / Real.sqrt (p.M na) else Q na u x y

/-- `elphmod/ph.py` 174-180 (`D_lr`) after `prepare_long_range` (329-413). -/
noncomputable def Dlr (p : Polar n) (Gmax : ℝ) (G2d : Bool) (q : Fin 3 → ℝ) (i j : Fin n × Fin 3) : ℂ :=
  let G := gList p Gmax G2d
  D0lr p G i j + einsumLR (generateLongRange p G (zMass p) (qMass p) q) i j

/-- `elphmod/ph.py` 145-172 (`D`) with long-range terms at a mesh point. -/
noncomputable def Dfull (p : Polar n) (Gmax : ℝ) (G2d : Bool) (l : List (V3 × (Fin n × Fin 3 → Fin n × Fin 3 → ℂ)))
    (q : Fin 3 → ℝ) (i j : Fin n × Fin 3) : ℂ := bloch l q i j + Dlr p Gmax G2d q i j

/-- `elphmod/ph.py` 505-510 (`sample_orig`). -/
noncomputable def sampleOrig (p : Polar n) (Gmax : ℝ) (G2d : Bool) (n1 n2 n3 : Nat)
    (l : List (V3 × (Fin n × Fin 3 → Fin n × Fin 3 → ℂ))) (m : V3) : Fin n × Fin 3 → Fin n × Fin 3 → ℂ :=
  Dfull p Gmax G2d l (meshK n1 n2 n3 m)

/-- `elphmod/ph.py` 512-535 (`update_short_range`) without acoustic sum rule, for `lr = True`. -/
noncomputable def updateShortRange (size n1 n2 n3 : Nat) (p : Polar n) (Gmax : ℝ) (G2d : Bool)
    (D0 : V3 → Fin n × Fin 3 → Fin n × Fin 3 → ℂ) :=
  phQ2r size n1 n2 n3 p.a p.r p.M p.divideMass p.divideMass true fun m i j =>
    D0 m i j - Dlr p Gmax G2d (meshK n1 n2 n3 m) i j

end Verif.Phon
