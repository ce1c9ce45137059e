import Mathlib.Analysis.SpecialFunctions.Log.Basic
import Mathlib.Analysis.SpecialFunctions.Trigonometric.Basic
import Mathlib.Analysis.Complex.Basic
import Mathlib.Data.Fin.Basic
import Verif.MPI.Model

/-!
# Model of `elphmod/diagrams.py`

Exact arithmetic. Occupation functions and their derivatives are parameters. Meshes with less than three dimensions are
meshes with one point along the missing directions, as after `np.reshape` in the code. Loops over `q` points are
distributed among processes and gathered (`parMap`).
-/

namespace Verif.Diag

/-- Points of a mesh. -/
abbrev Mesh (n1 n2 n3 : Nat) := Fin n1 × Fin n2 × Fin n3

/-- `round`, `np.round`: to the nearest integer, half to even. -/
noncomputable def roundEven (x : ℝ) : ℤ :=
  if Int.fract x < 1 / 2 then ⌊x⌋ else if 1 / 2 < Int.fract x then ⌊x⌋ + 1 else if ⌊x⌋ % 2 = 0 then ⌊x⌋ else ⌊x⌋ + 1

/-- `int(round(q1 * scale)) % nk`, `elphmod/diagrams.py` 59-60, 218, 402, 716, 917, 1035, 1240-1241. -/
noncomputable def qIndex (n : Nat) (q : ℝ) : Nat := (roundEven (q * (n / (2 * Real.pi))) % (n : ℤ)).toNat

/-- `np.tile(a, (2, 2, 2))[i, j, k]`. -/
def tile {α : Type} {n1 n2 n3 : Nat} [NeZero n1] [NeZero n2] [NeZero n3] (a : Mesh n1 n2 n3 → α) (i j k : Nat) : α :=
  a (Fin.ofNat n1 i, Fin.ofNat n2 j, Fin.ofNat n3 k)

/-- `np.tile(a, (2, 2, 2))[q1:q1 + nk[0], q2:q2 + nk[1], q3:q3 + nk[2]][k]`. -/
def slice {α : Type} {n1 n2 n3 : Nat} [NeZero n1] [NeZero n2] [NeZero n3] (a : Mesh n1 n2 n3 → α)
    (q : Nat × Nat × Nat) (k : Mesh n1 n2 n3) : α :=
  tile a (q.1 + k.1) (q.2.1 + k.2.1) (q.2.2 + k.2.2)

/-- `q1, q2, q3 = np.round(q[iq] * scale).astype(int) % nk`. -/
noncomputable def qIndices (n1 n2 n3 : Nat) (q : Fin 3 → ℝ) : Nat × Nat × Nat :=
  (qIndex n1 (q 0), qIndex n2 (q 1), qIndex n3 (q 2))

/-! ### Susceptibility -/

/-- `elphmod/diagrams.py` 15-71 (`susceptibility`), the returned function at `(q1, q2)`. -/
noncomputable def susceptibility {n : Nat} [NeZero n] (e : Mesh n n 1 → ℝ) (kT eta : ℝ) (occ delta : ℝ → ℝ)
    (q1 q2 : ℝ) : ℝ :=
  let f := fun k => occ (e k / kT)
  let d := (∑ k, delta (e k / kT)) / kT
  let q := (qIndex n q1, qIndex n q2, 0)
  if q.1 = 0 ∧ q.2.1 = 0 then 2 / (n : ℝ) ^ 2 * -d
  else 2 / (n : ℝ) ^ 2 * ∑ k,
    let df := slice f q k - f k
    let de := slice e q k - e k
    df * de / (de * de + eta ^ 2)

/-! ### Phonon self-energy -/

section
variable {n1 n2 n3 nb : Nat} [NeZero n1] [NeZero n2] [NeZero n3]

/-- `dfde` in the static case, `elphmod/diagrams.py` 196-202, 410-419, 724-731, 925-932 (in some places, both
differences have the opposite sign). -/
noncomputable def dfde (eps : ℝ) (e f d : Mesh n1 n2 n3 → Fin nb → ℝ) (q : Nat × Nat × Nat) (k : Mesh n1 n2 n3)
    (m n : Fin nb) : ℝ :=
  let df := f k n - slice f q k m
  let de := e k n - slice e q k m
  if |de| > eps then df / de else d k n

/-- `dfde` in the dynamic case, `elphmod/diagrams.py` 413-414. -/
noncomputable def dfdeOmega (omega : ℂ) (e f : Mesh n1 n2 n3 → Fin nb → ℝ) (q : Nat × Nat × Nat)
    (k : Mesh n1 n2 n3) (m n : Fin nb) : ℂ :=
  ((f k n - slice f q k m : ℝ) : ℂ) / (omega + ((e k n - slice e q k m : ℝ) : ℂ))

/-- Excluded energy window: `Delta`, `Delta_kT`, `Delta_diff` and the smoothened Heaviside function. -/
structure Window where
  Delta : ℝ
  kT : ℝ
  diff : Bool
  occ : ℝ → ℝ
  delta : ℝ → ℝ

/-- `Theta`, `elphmod/diagrams.py` 359-362. -/
noncomputable def Window.Theta (w : Window) (e : ℝ) : ℝ := 2 - w.occ ((e - w.Delta) / w.kT) - w.occ ((-e - w.Delta) / w.kT)

/-- `delta`, `elphmod/diagrams.py` 364-366. -/
noncomputable def Window.del (w : Window) (e : ℝ) : ℝ :=
  (w.delta ((e - w.Delta) / w.kT) + w.delta ((-e - w.Delta) / w.kT)) / -w.kT

/-- `envelope`, `elphmod/diagrams.py` 421-429, one without a window. -/
noncomputable def envelope (w : Option Window) (e : Mesh n1 n2 n3 → Fin nb → ℝ) (q : Nat × Nat × Nat)
    (k : Mesh n1 n2 n3) (m n : Fin nb) : ℝ :=
  match w with
  | none => 1
  | some w =>
    if w.diff then w.Theta (slice e q k m) * w.del (e k n) + w.del (slice e q k m) * w.Theta (e k n)
    else w.Theta (slice e q k m) * w.Theta (e k n)

/-- Matrices in the space of bands for each mode and k point (for one q point). -/
abbrev Cpl (n1 n2 n3 nb : Nat) (X : Type) := X → Mesh n1 n2 n3 → Fin nb → Fin nb → ℂ

/-- `Pi_k`, `elphmod/diagrams.py` 434-446, `w` is `dfde` including the envelope, `G` is `none` if absent. -/
noncomputable def piK {X : Type} [DecidableEq X] (symmetrize diagonal : Bool) (w : Mesh n1 n2 n3 → Fin nb → Fin nb → ℂ)
    (g : Cpl n1 n2 n3 nb X) (G : Option (Cpl n1 n2 n3 nb X)) (mu nu : X) (k : Mesh n1 n2 n3) (m n : Fin nb) : ℂ :=
  if diagonal ∧ mu ≠ nu then 0 * w k m n
  else
    (match G with
    | none => star (g mu k m n) * g nu k m n
    | some G =>
      if symmetrize then (star (g mu k m n) * G nu k m n + star (G mu k m n) * g nu k m n) / 2
      else star (g mu k m n) * G nu k m n) * w k m n

/-- `elphmod/diagrams.py` 455-468: terms from the contact interaction `U` (all bands, zero if not used). -/
noncomputable def contact {X : Type} (w : Mesh n1 n2 n3 → Fin nb → Fin nb → ℂ) (U : Fin nb → Fin nb → ℝ)
    (g G : Cpl n1 n2 n3 nb X) (mu nu : X) : ℂ :=
  let pre : ℂ := 2 / (n1 * n2 * n3 : Nat)
  ∑ m, ∑ n, (pre * ∑ k, star (g mu k m n) * w k m n) *
    ((U m n : ℂ) / (1 - (pre * ∑ k, w k m n) * (U m n : ℂ))) * (pre * ∑ k, w k m n * G nu k m n)

/-- `elphmod/diagrams.py` 262-492 (`phonon_self_energy`) with `g`, for one q point, given `dfde`. -/
noncomputable def selfEnergy {X : Type} [DecidableEq X] (symmetrize diagonal : Bool)
    (w : Mesh n1 n2 n3 → Fin nb → Fin nb → ℂ) (U : Fin nb → Fin nb → ℝ) (g : Cpl n1 n2 n3 nb X)
    (G : Option (Cpl n1 n2 n3 nb X)) (mu nu : X) : ℂ :=
  2 / (n1 * n2 * n3 : Nat) * (∑ k, ∑ m, ∑ n, piK symmetrize diagonal w g G mu nu k m n) +
    contact w U g (G.getD g) mu nu

/-- `elphmod/diagrams.py` 262-492 (`phonon_self_energy`) with `g2`, for one q point, given `dfde`. -/
noncomputable def selfEnergy2 {X : Type} (w : Mesh n1 n2 n3 → Fin nb → Fin nb → ℂ)
    (g2 : X → Mesh n1 n2 n3 → Fin nb → Fin nb → ℂ) (nu : X) : ℂ :=
  2 / (n1 * n2 * n3 : Nat) * ∑ k, ∑ m, ∑ n, g2 nu k m n * w k m n

/-- Static weights, `elphmod/diagrams.py` 353-357, 410-431. -/
noncomputable def weights (eps kT : ℝ) (occ delta : ℝ → ℝ) (win : Option Window) (e : Mesh n1 n2 n3 → Fin nb → ℝ)
    (q : Fin 3 → ℝ) (k : Mesh n1 n2 n3) (m n : Fin nb) : ℝ :=
  let qi := qIndices n1 n2 n3 q
  dfde eps e (fun k n => occ (e k n / kT)) (fun k n => delta (e k n / kT) / -kT) qi k m n * envelope win e qi k m n

/-- `elphmod/diagrams.py` 262-492 (`phonon_self_energy`), static, with `g`, on `size` processes. -/
noncomputable def phononSelfEnergy {X : Type} [DecidableEq X] (size : Nat) (eps kT : ℝ) (occ delta : ℝ → ℝ)
    (win : Option Window) (symmetrize diagonal : Bool) (U : Fin nb → Fin nb → ℝ) (e : Mesh n1 n2 n3 → Fin nb → ℝ)
    (q : List ((Fin 3 → ℝ) × Cpl n1 n2 n3 nb X × Option (Cpl n1 n2 n3 nb X))) : Option (List (X → X → ℂ)) :=
  Verif.MPI.parMap size (fun a => selfEnergy symmetrize diagonal
    (fun k m n => (weights eps kT occ delta win e a.1 k m n : ℂ)) U a.2.1 a.2.2) q

/-- `elphmod/diagrams.py` 494-532 (`phonon_self_energy_fermi_shift`). -/
noncomputable def fermiShift {X : Type} (kT : ℝ) (delta : ℝ → ℝ) (e : Mesh n1 n2 n3 → Fin nb → ℝ)
    (g : Cpl n1 n2 n3 nb X) (x y : X) : ℂ :=
  let d := fun k n => delta (e k n / kT) / kT
  let dos := ∑ k, ∑ n, d k n
  let avg := fun x => (∑ k, ∑ n, (d k n : ℂ) * g x k n n) / dos
  2 / (n1 * n2 * n3 : Nat) * dos * (avg x * avg y)

/-! ### Polarization, renormalized coupling -/

/-- `elphmod/diagrams.py` 147-260 (`polarization`), the returned function. `U k a n` are coefficients. -/
noncomputable def polarization {A : Type} (eps kT : ℝ) (occ delta : ℝ → ℝ) (e : Mesh n1 n2 n3 → Fin nb → ℝ)
    (U : Mesh n1 n2 n3 → A → Fin nb → ℂ) (subspace : Option (Mesh n1 n2 n3 → Fin nb → Bool)) (q : Fin 3 → ℝ)
    (a b : A) : ℂ :=
  let qi := qIndices n1 n2 n3 q
  2 / (n1 * n2 * n3 : Nat) * ∑ m, ∑ n, ∑ k,
    let UU := fun a => star (slice U qi k a m) * U k a n
    let w := dfde eps e (fun k n => occ (e k n / kT)) (fun k n => delta (e k n / kT) / -kT) qi k m n
    let w := match subspace with
      | none => w
      | some s => if slice s qi k m && s k n then 0 else w
    star (UU a) * (w : ℂ) * UU b

/-- `elphmod/diagrams.py` 836-956 (`Pi_g`) for one q point and one mode: all elements, the diagonal ones are returned
for `dd`. -/
noncomputable def piG {A : Type} [Fintype A] (w : Mesh n1 n2 n3 → Fin nb → Fin nb → ℂ)
    (U : Mesh n1 n2 n3 → A → Fin nb → ℂ) (q : Nat × Nat × Nat) (g : Mesh n1 n2 n3 → A → A → ℂ) (c d : A) : ℂ :=
  2 / (n1 * n2 * n3 : Nat) * ∑ k, ∑ m, ∑ n, ∑ a, ∑ b,
    slice U q k c m * star (U k d n) * w k m n * star (slice U q k a m) * U k b n * g k a b

/-- `elphmod/diagrams.py` 805-834 for density-density interactions. -/
noncomputable def renormOrbital {A : Type} [Fintype A] [DecidableEq A] (w : Mesh n1 n2 n3 → Fin nb → Fin nb → ℂ)
    (U : Mesh n1 n2 n3 → A → Fin nb → ℂ) (q : Nat × Nat × Nat) (W : A → A → ℂ) (g : Mesh n1 n2 n3 → A → A → ℂ)
    (k : Mesh n1 n2 n3) (a b : A) : ℂ :=
  if a = b then g k a b + ∑ c, W a c * piG w U q g c c else g k a b

/-- `elphmod/diagrams.py` 733-748 for density-density interactions (all bands in the bubble). -/
noncomputable def renormBand {A : Type} [Fintype A] (w : Mesh n1 n2 n3 → Fin nb → Fin nb → ℂ)
    (U : Mesh n1 n2 n3 → A → Fin nb → ℂ) (q : Nat × Nat × Nat) (W : A → A → ℂ)
    (g : Mesh n1 n2 n3 → Fin nb → Fin nb → ℂ) (k : Mesh n1 n2 n3) (m n : Fin nb) : ℂ :=
  let Pig := fun c => 2 / (n1 * n2 * n3 : Nat) * ∑ k, ∑ m, ∑ n, slice U q k c m * star (U k c n) * w k m n * g k m n
  g k m n + ∑ a, ∑ c, star (slice U q k a m) * U k a n * W a c * Pig c

/-- `elphmod/diagrams.py` 825-826: the loop, which continues while `(dg.ndim < g.ndim - 1) if dd else g.ndim`. The
number of dimensions of an array is limited (`maxdim`); `none` is the exception, `some none` is no return after `fuel`
rounds. -/
def newaxisLoop (maxdim : Nat) (dd : Bool) (gdim : Nat) : Nat → Nat → Option (Option Nat)
  | 0, _ => some none
  | fuel + 1, dgdim =>
    if (if dd then decide (dgdim < gdim - 1) else decide (gdim ≠ 0)) then
      if dgdim < maxdim then newaxisLoop maxdim dd gdim fuel (dgdim + 1) else none
    else some (some dgdim)

/-- `elphmod/diagrams.py` 805-826 (`renormalize_coupling_orbital`): number of dimensions of `dg` before the addition;
`gdim` is the number of dimensions of `g`. -/
def renormDims (maxdim : Nat) (dd : Bool) (gdim fuel : Nat) : Option (Option Nat) :=
  newaxisLoop maxdim dd gdim fuel (if dd then 3 else 4)

/-! ### Fermi-surface averages -/

/-- `elphmod/diagrams.py` 958-1063 (`double_fermi_surface_average`) for one q point: enumerator. -/
noncomputable def fsEnum {X : Type} (kT : ℝ) (delta : ℝ → ℝ) (e : Mesh n1 n2 n3 → Fin nb → ℝ)
    (g2 : X → Mesh n1 n2 n3 → Fin nb → Fin nb → ℝ) (q : Fin 3 → ℝ) (nu : X) : ℝ :=
  let d := fun k n => delta (e k n / kT) / kT
  ∑ k, ∑ m, ∑ n, g2 nu k m n * (slice d (qIndices n1 n2 n3 q) k m * d k n)

/-- `elphmod/diagrams.py` 958-1063 (`double_fermi_surface_average`) for one q point: denominator. -/
noncomputable def fsDeno (kT : ℝ) (delta : ℝ → ℝ) (e : Mesh n1 n2 n3 → Fin nb → ℝ) (q : Fin 3 → ℝ) : ℝ :=
  let d := fun k n => delta (e k n / kT) / kT
  ∑ k, ∑ m, ∑ n, slice d (qIndices n1 n2 n3 q) k m * d k n

/-! ### Grand potential -/

/-- `elphmod/diagrams.py` 1065-1092 (`grand_potential`), general case. -/
noncomputable def grandPotential (kT : ℝ) (occ entropy : ℝ → ℝ) (e : Mesh n1 n2 n3 → Fin nb → ℝ) : ℝ :=
  2 * kT / (n1 * n2 * n3 : Nat) * ((∑ k, ∑ n, occ (e k n / kT) * (e k n / kT)) - ∑ k, ∑ n, entropy (e k n / kT))

/-- `elphmod/diagrams.py` 1088-1089: special case of the Fermi-Dirac distribution. -/
noncomputable def grandPotentialFast (kT : ℝ) (occ : ℝ → ℝ) (e : Mesh n1 n2 n3 → Fin nb → ℝ) : ℝ :=
  2 * kT / (n1 * n2 * n3 : Nat) * ∑ k, ∑ n, Real.log (occ (-(e k n / kT)))

/-- `elphmod/diagrams.py` 1094-1144 (`first_order`) in the eigenbasis. -/
noncomputable def firstOrder (kT : ℝ) (occ : ℝ → ℝ) (e : Mesh n1 n2 n3 → Fin nb → ℝ)
    (g : Mesh n1 n2 n3 → Fin nb → Fin nb → ℂ) : ℂ :=
  2 / (n1 * n2 * n3 : Nat) * ∑ k, ∑ m, (occ (e k m / kT) : ℂ) * g k m m

/-- `elphmod/diagrams.py` 1094-1144 (`first_order`) in a basis with coefficients `U`. -/
noncomputable def firstOrderU {A : Type} [Fintype A] (kT : ℝ) (occ : ℝ → ℝ) (e : Mesh n1 n2 n3 → Fin nb → ℝ)
    (U : Mesh n1 n2 n3 → A → Fin nb → ℂ) (g : Mesh n1 n2 n3 → A → A → ℂ) : ℂ :=
  2 / (n1 * n2 * n3 : Nat) * ∑ k, ∑ a, ∑ b, (∑ m, U k a m * (occ (e k m / kT) : ℂ) * star (U k b m)) * g k b a

end

/-! ### Triangle -/

/-- `chi`, `elphmod/diagrams.py` 1262-1300: factor for three energies, with occupations, derivatives `d` and (first
state) `p`. -/
noncomputable def chiTriangle (eps : ℝ) (ea eb ec fa fb fc da db dc pa : ℝ) : ℝ :=
  let dea := eb - ec
  let deb := ec - ea
  let dec := ea - eb
  let dfa := fb - fc
  let dfb := fc - fa
  let dfc := fa - fb
  if |dea| > eps ∧ |deb| > eps ∧ |dec| > eps then (ea * dfa + eb * dfb + ec * dfc) / (dea * deb * dec)
  else if ¬ |dea| > eps ∧ |deb| > eps ∧ |dec| > eps then (db + dfc / dec) / dec
  else if |dea| > eps ∧ ¬ |deb| > eps ∧ |dec| > eps then (dc + dfa / dea) / dea
  else if |dea| > eps ∧ |deb| > eps ∧ ¬ |dec| > eps then (da + dfb / deb) / deb
  else -0.5 * pa

/-- `chiTriangle` with the arrays of `elphmod/diagrams.py` 1222-1226. -/
noncomputable def triangleFactor (eps kT : ℝ) (occ delta deltaPrime : ℝ → ℝ) (ea eb ec : ℝ) : ℝ :=
  chiTriangle eps ea eb ec (occ (ea / kT)) (occ (eb / kT)) (occ (ec / kT)) (delta (ea / kT) / kT) (delta (eb / kT) / kT)
    (delta (ec / kT) / kT) (deltaPrime (ea / kT) / kT ^ 2)

/-- `elphmod/diagrams.py` 1146-1315 (`triangle`). `np.roll(gqQ, shift=-Q[i], axis=i)` is a slice of the tiled array. -/
noncomputable def triangle {n1 n2 n3 nb : Nat} [NeZero n1] [NeZero n2] [NeZero n3] (eps kT : ℝ)
    (occ delta deltaPrime : ℝ → ℝ) (e : Mesh n1 n2 n3 → Fin nb → ℝ) (q Q : Fin 3 → ℝ)
    (gq gQ gqQ : Mesh n1 n2 n3 → Fin nb → Fin nb → ℂ) : ℂ :=
  let qi := qIndices n1 n2 n3 q
  let Qi := qIndices n1 n2 n3 Q
  4 / (n1 * n2 * n3 : Nat) * ∑ k, ∑ a, ∑ b, ∑ c,
    (triangleFactor eps kT occ delta deltaPrime (e k a) (slice e qi k b) (slice e Qi k c) : ℂ) * star (gq k b a) *
      gQ k c a * slice gqQ Qi k b c

/-! ### Electron self-energy, conductivity -/

/-- `elphmod/diagrams.py` 1317-1403 (`fan_migdal_self_energy`) for one k point, band and frequency. -/
noncomputable def fanMigdal {n1 n2 n3 nb : Nat} [NeZero n1] [NeZero n2] [NeZero n3] {X : Type} [Fintype X] (kT : ℝ)
    (occ bose : ℝ → ℝ) (e : Mesh n1 n2 n3 → Fin nb → ℝ) (w : Mesh n1 n2 n3 → X → ℝ) (k : Fin 3 → ℝ)
    (g2 : Mesh n1 n2 n3 → X → Fin nb → ℝ) (omega : ℂ) : ℂ :=
  let ki := qIndices n1 n2 n3 k
  1 / (n1 * n2 * n3 : Nat) * ∑ q, ∑ nu, ∑ m,
    let f := occ (slice e ki q m / kT)
    let N := bose (w q nu / kT)
    let domega := omega - (slice e ki q m : ℂ)
    (g2 q nu m : ℂ) * (((f + N : ℝ) : ℂ) / (domega + (w q nu : ℂ)) + ((1 - f + N : ℝ) : ℂ) / (domega - (w q nu : ℂ)))

/-- `elphmod/diagrams.py` 1405-1492 (`green_kubo_conductivity`) at the frequency with index `iw`, on an equidistant mesh
`omega[i] = (i - iw0) * domega`. States `s` combine k points and bands. `slmp` and `slpm` are slices of equal length. -/
noncomputable def greenKubo {S : Type} [Fintype S] (nq nw iw0 : Nat) (domega kT : ℝ) (occ delta : ℝ → ℝ)
    (v : S → Fin 3 → ℝ) (A : S → Nat → ℝ) (iw : Nat) (x y : Fin 3) : ℝ :=
  let om := fun i : Nat => ((i : ℝ) - (iw0 : ℝ)) * domega
  let diw : Int := (iw : Int) - (iw0 : Int)
  let m := (max 0 (-diw)).toNat
  let p := (max 0 diw).toNat
  4 * Real.pi / nq * domega * ∑ i ∈ Finset.range (nw - p - m),
    (if iw = iw0 then delta (om i / kT) / kT else (occ (om (m + i) / kT) - occ (om (p + i) / kT)) / om iw) *
      ∑ s, (v s x * A s (m + i)) * (v s y * A s (p + i))

end Verif.Diag
