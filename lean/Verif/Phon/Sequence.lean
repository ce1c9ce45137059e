import Verif.TB.Sequence
import Verif.Phon.SupercellLR

/-!
# C164: sequences of `standardize`, `supercell`, `order_atoms`, `shift_atoms` for phonon models with long-range terms

The long-range terms are calculated from attributes some of which are prepared once (`prepare_long_range`). Which methods prepare them anew, and
do the others leave consistent attributes behind?
-/

namespace Verif.Phon.Seq

open Matrix
open Verif.Lattice (V3 Supercell detSpec)
open Verif.Fourier (phase)
open Verif.TB (Blocks Call pyIndex order shiftBlocks phStandardize superK foldK Allowed shiftPhase dynMat)
open Verif.Phon.Super (recip superPolar Dual Complete Plane at' triple)

/-! ### Model -/

/-- Attributes `G`, `z`, `q`, `D0_lr` set by `prepare_long_range`. Those that depend on `a`, `eps` and `alpha` only (`scale`, `prefactor`, `r_eff`)
are calculated when needed. -/
structure LR (n : Nat) where
  G : List (Fin 3 → ℝ)
  z : Fin n → Fin 3 → Fin 3 → ℝ
  q : Option (Fin n → Fin 3 → Fin 3 → Fin 3 → ℝ)
  D0 : Fin n × Fin 3 → Fin n × Fin 3 → ℂ

/-- A phonon model; `lr` is `none` if the attribute `lr` is false. -/
structure PModel where
  nat : Nat
  data : Blocks (Fin nat × Fin 3) ℝ
  p : Polar nat
  lr : Option (LR nat)

/-- `elphmod/ph.py` 356 (`self.b = ...`). -/
noncomputable def setB {n : Nat} (p : Polar n) : Polar n := { p with b := recip p.a }

/-- `elphmod/ph.py` 380-418 (`prepare_long_range`). -/
noncomputable def prepareLR {n : Nat} (Gmax : ℝ) (G2d : Bool) (p : Polar n) : LR n :=
  ⟨gList p Gmax G2d, zMass p, qMass p, D0lr p (gList p Gmax G2d)⟩

/-- `elphmod/ph.py` 329-418 (`prepare_long_range`). -/
noncomputable def prepare (Gmax : ℝ) (G2d : Bool) (m : PModel) : PModel :=
  { m with p := setB m.p, lr := some (prepareLR Gmax G2d (setB m.p)) }

/-- `if self.lr: self.prepare_long_range()`: `elphmod/ph.py` 620-621, 794-795. -/
noncomputable def reprepare (m : PModel) : PModel :=
  match m.lr with
  | none => m
  | some _ => prepare 28 false m

/-- `elphmod/ph.py` 145-180 (`D`, `D_lr`). -/
noncomputable def D (m : PModel) (q : Fin 3 → ℝ) : Matrix (Fin m.nat × Fin 3) (Fin m.nat × Fin 3) ℂ := fun i j =>
  dynMat m.data q i j + match m.lr with
  | none => 0
  | some l => l.D0 i j + einsumLR (generateLongRange m.p l.G l.z l.q q) i j

/-- `elphmod/ph.py` 783-792: attributes of atoms are reordered. -/
def orderPolar {n : Nat} (f : Fin n → Fin n) (p : Polar n) : Polar n :=
  { p with r := fun a => p.r (f a), Z := fun a => p.Z (f a), Q := p.Q.map fun Q a => Q (f a), M := fun a => p.M (f a) }

/-- `elphmod/ph.py` 839 (`self.r[s] += np.dot(S, self.a)`). -/
noncomputable def shiftPolar {n : Nat} (s : Nat → Bool) (S : V3) (p : Polar n) : Polar n :=
  { p with r := fun a x => if s a then p.r a x + ((S.1 : ℝ) * p.a 0 x + (S.2.1 : ℝ) * p.a 1 x + (S.2.2 : ℝ) * p.a 2 x) else p.r a x }

/-- `elphmod/ph.py` 764-795 (`order_atoms`); indices that are out of range or of wrong number are `none`. -/
noncomputable def orderP (o : List Int) (m : PModel) : Option PModel :=
  (o.mapM (pyIndex m.nat)).bind fun js =>
    if h : js.length = m.nat then
      let f : Fin m.nat → Fin m.nat := fun x => js[(x : ℕ)]'(by rw [h]; exact x.2)
      some (reprepare ⟨m.nat, order (fun x => (f x.1, x.2)) m.data, orderPolar f m.p, m.lr⟩)
    else none

/-- `elphmod/ph.py` 559-680 (`supercell`). -/
noncomputable def supercellP (N1 N2 N3 : V3) (m : PModel) : Option PModel :=
  (Verif.Lattice.supercell N1 N2 N3).bind fun s => (Verif.TB.supercell s m.data).map fun d =>
    ⟨s.cells.length * m.nat, order (fun x => ((x.1.divNat : ℕ), x.1.modNat, x.2)) d, superPolar s m.p,
      m.lr.map fun _ => prepareLR 28 false (superPolar s m.p)⟩

/-- One method call: `standardize` (`elphmod/ph.py` 841-905), `supercell`, `order_atoms`, `shift_atoms` (797-839). -/
noncomputable def call : Call → PModel → Option PModel
  | .standardize, m => some { m with data := phStandardize 0 false m.data }
  | .supercell N1 N2 N3, m => supercellP N1 N2 N3 m
  | .order o, m => orderP o m
  | .shift s S, m => some { m with data := phStandardize 0 false (shiftBlocks (fun x => s x.1) S m.data), p := shiftPolar s S m.p }

/-- Method calls one after the other. -/
noncomputable def calls : List Call → PModel → Option PModel
  | [], m => some m
  | c :: cs, m => (call c m).bind (calls cs)

/-! ### Specification -/

/-- Specification: attributes prepared with the default cutoff for the present structure, unique lattice vectors. -/
def Prepared (m : PModel) : Prop :=
  (m.data.map Prod.fst).Nodup ∧ (m.lr ≠ none → m.p.b = recip m.p.a ∧ triple m.p.a ≠ 0 ∧ m.lr = some (prepareLR 28 false m.p))

/-- Specification: when a supercell is set up, no reciprocal lattice vector below the cutoff is missed (C80), and supercells of two-dimensional
systems are two-dimensional. -/
def FineCall : Call → PModel → Prop
  | .supercell N1 N2 N3, m => m.lr ≠ none → (m.p.lr2d = true → Plane N1 N2 N3) ∧ Complete m.p 28 false ∧
      ∀ s, Verif.Lattice.supercell N1 N2 N3 = some s → Complete (superPolar s m.p) 28 false
  | _, _ => True

/-- Specification: the same for sequences. -/
def Fine : List Call → PModel → Prop
  | [], _ => True
  | c :: cs, m => FineCall c m ∧ ∀ m', call c m = some m' → Fine cs m'

/-- Specification: supercell vectors are multiples of primitive vectors, within the plane if the system is two-dimensional. -/
def Diagonal (twoDim : Bool) : Call → Prop
  | .supercell N1 N2 N3 => ∃ k1 k2 k3 : Int, N1 = (k1, 0, 0) ∧ N2 = (0, k2, 0) ∧ N3 = (0, 0, k3) ∧ (twoDim = true → k3 = 1)
  | _ => True

/-- Specification: orthogonal primitive vectors, and vacuum is the least polarizable medium. -/
def Orthogonal (m : PModel) : Prop :=
  (∀ i j, i ≠ j → dot3 (m.p.a i) (m.p.a j) = 0) ∧ ∀ K : Fin 3 → ℝ, ∑ x, K x ^ 2 ≤ ∑ x, ∑ y, K x * m.p.eps x y * K y

/-- Specification: `v` is a mode with squared frequency `w2`. -/
def Mode (m : PModel) (q : Fin 3 → ℝ) (w2 : ℂ) (v : Fin m.nat × Fin 3 → ℂ) : Prop := v ≠ 0 ∧ D m q *ᵥ v = w2 • v

/-! ### Reordering -/

section
variable {n : Nat}

theorem setB_eq (p : Polar n) (h : p.b = recip p.a) : setB p = p := by
  cases p
  simp only at h
  subst h
  rfl

theorem recip_eq (p : Polar n) (hp : Dual p) : recip p.a = p.b := by
  have h1 := Super.dual_mul hp
  have h2 := Super.dual_mul (Super.recip_dual p.a (Super.triple_ne hp))
  have h3 : (Matrix.of (recip p.a)).transpose = (Matrix.of p.b).transpose := by
    have h4 := mul_eq_one_comm.1 h1
    calc (Matrix.of (recip p.a)).transpose = ((Matrix.of p.b).transpose * Matrix.of p.a) * (Matrix.of (recip p.a)).transpose := by
          rw [h4, Matrix.one_mul]
      _ = (Matrix.of p.b).transpose := by rw [Matrix.mul_assoc, h2, Matrix.mul_one]
  exact Matrix.transpose_injective h3

theorem dual_of (p : Polar n) (h : p.b = recip p.a) (ht : triple p.a ≠ 0) : Dual p := by
  intro i j
  rw [h]
  exact Super.recip_dual p.a ht i j

theorem einsum_order (f : Fin n → Fin n) (p : Polar n) (G : List (Fin 3 → ℝ)) (z : Fin n → Fin 3 → Fin 3 → ℝ)
    (qu : Option (Fin n → Fin 3 → Fin 3 → Fin 3 → ℝ)) (q : Fin 3 → ℝ) (i j : Fin n × Fin 3) :
    einsumLR (generateLongRange (orderPolar f p) G (fun a => z (f a)) (qu.map fun Q a => Q (f a)) q) i j =
      einsumLR (generateLongRange p G z qu q) (f i.1, i.2) (f j.1, j.2) := by
  have hd : ∀ K na u, dotFactor (orderPolar f p) (fun a => z (f a)) (qu.map fun Q a => Q (f a)) K na u = dotFactor p z qu K (f na) u := by
    intro K na u
    cases qu <;> rfl
  have hp : ∀ K na u, dotPerp (orderPolar f p) (fun a => z (f a)) (qu.map fun Q a => Q (f a)) K na u = dotPerp p z qu K (f na) u := by
    intro K na u
    cases qu <;> rfl
  have he : ∀ K na, expFactor (orderPolar f p) K na = expFactor p K (f na) := fun _ _ => rfl
  have hk : ∀ K, keK (orderPolar f p) K = keK p K := fun _ => rfl
  have hf : ∀ K, factor (orderPolar f p) K = factor p K := fun _ => rfl
  have hg : ∀ l K, factorPerp (orderPolar f p) l K = factorPerp p l K := fun _ _ => rfl
  have hb : (orderPolar f p).b = p.b := rfl
  have h2 : (orderPolar f p).lr2d = p.lr2d := rfl
  have h3 : (orderPolar f p).L = p.L := rfl
  have h4 : (orderPolar f p).perp = p.perp := rfl
  unfold einsumLR generateLongRange
  simp only [hd, hp, he, hk, hf, hg, hb, h2, h3, h4]
  rcases p.lr2d with _ | _ <;> rcases p.L with _ | l <;> rcases p.perp with _ | _ <;>
    simp [List.map_append, List.map_map, Function.comp_def]

theorem D0_order (f : Fin n ≃ Fin n) (p : Polar n) (G : List (Fin 3 → ℝ)) (i j : Fin n × Fin 3) :
    D0lr (orderPolar f p) G i j = D0lr p G (f i.1, i.2) (f j.1, j.2) := by
  unfold D0lr
  simp only [f.injective.eq_iff]
  have h : ∑ na2, einsumLR (generateLongRange (orderPolar f p) G (orderPolar f p).Z (orderPolar f p).Q fun _ => 0) i (na2, j.2) =
      ∑ na2, einsumLR (generateLongRange p G p.Z p.Q fun _ => 0) (f i.1, i.2) (na2, j.2) := by
    rw [← f.sum_comp fun a => einsumLR (generateLongRange p G p.Z p.Q fun _ => 0) (f i.1, i.2) (a, j.2)]
    exact Finset.sum_congr rfl fun a _ => einsum_order f p G p.Z p.Q _ i (a, j.2)
  rw [h]
  rfl

theorem prepare_order (f : Fin n ≃ Fin n) (p : Polar n) (Gmax : ℝ) (G2d : Bool) (q : Fin 3 → ℝ) (i j : Fin n × Fin 3) :
    (prepareLR Gmax G2d (orderPolar f p)).D0 i j + einsumLR (generateLongRange (orderPolar f p) (prepareLR Gmax G2d (orderPolar f p)).G
        (prepareLR Gmax G2d (orderPolar f p)).z (prepareLR Gmax G2d (orderPolar f p)).q q) i j =
      (prepareLR Gmax G2d p).D0 (f i.1, i.2) (f j.1, j.2) + einsumLR (generateLongRange p (prepareLR Gmax G2d p).G
        (prepareLR Gmax G2d p).z (prepareLR Gmax G2d p).q q) (f i.1, i.2) (f j.1, j.2) := by
  have h1 : qMass (orderPolar f p) = (qMass p).map fun Q a => Q (f a) := by
    unfold qMass
    show Option.map _ (Option.map _ p.Q) = Option.map _ (Option.map _ p.Q)
    rw [Option.map_map, Option.map_map]
    rfl
  have h2 := einsum_order f p (gList p Gmax G2d) (zMass p) (qMass p) q i j
  rw [← h1] at h2
  exact congrArg₂ (· + ·) (D0_order f p (gList p Gmax G2d) i j) h2

/-! ### Shifts -/

theorem exp_shift (p : Polar n) (hp : Dual p) (s : Nat → Bool) (S : V3) (m : V3) (q : Fin 3 → ℝ) (na : Fin n) :
    expFactor (shiftPolar s S p) (fun x => gVec p m x + q 0 * p.b 0 x + q 1 * p.b 1 x + q 2 * p.b 2 x) na =
      expFactor p (fun x => gVec p m x + q 0 * p.b 0 x + q 1 * p.b 1 x + q 2 * p.b 2 x) na *
        star (shiftPhase (fun a : Fin n => s a) S q na) := by
  unfold expFactor shiftPhase shiftPolar
  by_cases hs : s na
  · simp only [hs, if_true]
    have hdot : ∀ i j, ∑ x, p.a i x * p.b j x = if i = j then 1 else 0 := hp
    have h : ∑ x, (gVec p m x + q 0 * p.b 0 x + q 1 * p.b 1 x + q 2 * p.b 2 x) *
        (p.r na x + ((S.1 : ℝ) * p.a 0 x + (S.2.1 : ℝ) * p.a 1 x + (S.2.2 : ℝ) * p.a 2 x)) =
        ∑ x, (gVec p m x + q 0 * p.b 0 x + q 1 * p.b 1 x + q 2 * p.b 2 x) * p.r na x +
          (2 * Real.pi * ((S.1 * m.1 + S.2.1 * m.2.1 + S.2.2 * m.2.2 : Int) : ℝ) + (S.1 * q 0 + S.2.1 * q 1 + S.2.2 * q 2)) := by
      have h00 := hdot 0 0; have h01 := hdot 0 1; have h02 := hdot 0 2
      have h10 := hdot 1 0; have h11 := hdot 1 1; have h12 := hdot 1 2
      have h20 := hdot 2 0; have h21 := hdot 2 1; have h22 := hdot 2 2
      simp only [Fin.sum_univ_three, Fin.isValue, if_true, show ((0 : Fin 3) = 1) = False by decide, show ((0 : Fin 3) = 2) = False by decide,
        show ((1 : Fin 3) = 0) = False by decide, show ((1 : Fin 3) = 2) = False by decide, show ((2 : Fin 3) = 0) = False by decide,
        show ((2 : Fin 3) = 1) = False by decide, if_false] at h00 h01 h02 h10 h11 h12 h20 h21 h22
      unfold gVec
      simp only [Fin.sum_univ_three]
      push_cast
      linear_combination (S.1 : ℝ) * ((2 * Real.pi * m.1 + q 0) * h00 + (2 * Real.pi * m.2.1 + q 1) * h01 + (2 * Real.pi * m.2.2 + q 2) * h02) +
        (S.2.1 : ℝ) * ((2 * Real.pi * m.1 + q 0) * h10 + (2 * Real.pi * m.2.1 + q 1) * h11 + (2 * Real.pi * m.2.2 + q 2) * h12) +
        (S.2.2 : ℝ) * ((2 * Real.pi * m.1 + q 0) * h20 + (2 * Real.pi * m.2.1 + q 1) * h21 + (2 * Real.pi * m.2.2 + q 2) * h22)
    rw [h]
    have h1 : star (phase S q) = Complex.exp (-Complex.I * ((S.1 * q 0 + S.2.1 * q 1 + S.2.2 * q 2 : ℝ) : ℂ)) := by
      unfold phase
      rw [Complex.star_def, ← Complex.exp_conj]
      congr 1
      simp
    rw [h1]
    push_cast
    rw [mul_add, mul_add, Complex.exp_add, Complex.exp_add]
    have h2 : Complex.exp (-Complex.I * (2 * (Real.pi : ℂ) * ((S.1 : ℂ) * m.1 + S.2.1 * m.2.1 + S.2.2 * m.2.2))) = 1 := by
      rw [Complex.exp_eq_one_iff]
      refine ⟨-(S.1 * m.1 + S.2.1 * m.2.1 + S.2.2 * m.2.2), ?_⟩
      push_cast
      ring
    rw [h2, one_mul]
  · simp [hs]

theorem einsum_shift (p : Polar n) (hp : Dual p) (s : Nat → Bool) (S : V3) (Gmax : ℝ) (G2d : Bool) (z : Fin n → Fin 3 → Fin 3 → ℝ)
    (qu : Option (Fin n → Fin 3 → Fin 3 → Fin 3 → ℝ)) (q : Fin 3 → ℝ) (i j : Fin n × Fin 3) :
    einsumLR (generateLongRange (shiftPolar s S p) (gList p Gmax G2d) z qu q) i j =
      shiftPhase (fun a : Fin n => s a) S q i.1 * einsumLR (generateLongRange p (gList p Gmax G2d) z qu q) i j *
        star (shiftPhase (fun a : Fin n => s a) S q j.1) := by
  have hd : ∀ K na u, dotFactor (shiftPolar s S p) z qu K na u = dotFactor p z qu K na u := by
    intro K na u
    cases qu <;> rfl
  have hpp : ∀ K na u, dotPerp (shiftPolar s S p) z qu K na u = dotPerp p z qu K na u := by
    intro K na u
    cases qu <;> rfl
  have hk : ∀ K, keK (shiftPolar s S p) K = keK p K := fun _ => rfl
  have hf : ∀ K, factor (shiftPolar s S p) K = factor p K := fun _ => rfl
  have hg : ∀ l K, factorPerp (shiftPolar s S p) l K = factorPerp p l K := fun _ _ => rfl
  have hb : (shiftPolar s S p).b = p.b := rfl
  have h2 : (shiftPolar s S p).lr2d = p.lr2d := rfl
  have h3 : (shiftPolar s S p).L = p.L := rfl
  have h4 : (shiftPolar s S p).perp = p.perp := rfl
  have key : ∀ (K : List (Fin 3 → ℝ)) (F : (Fin 3 → ℝ) → ℝ) (A : (Fin 3 → ℝ) → Fin n → Fin 3 → ℂ),
      (∀ k ∈ K, ∀ na, expFactor (shiftPolar s S p) k na = expFactor p k na * star (shiftPhase (fun a : Fin n => s a) S q na)) →
      ((K.map fun k => (F k, fun i : Fin n × Fin 3 => A k i.1 i.2 * expFactor (shiftPolar s S p) k i.1)).map fun t => (t.1 : ℂ) * star (t.2 i) * t.2 j).sum =
      shiftPhase (fun a : Fin n => s a) S q i.1 *
        ((K.map fun k => (F k, fun i : Fin n × Fin 3 => A k i.1 i.2 * expFactor p k i.1)).map fun t => (t.1 : ℂ) * star (t.2 i) * t.2 j).sum *
        star (shiftPhase (fun a : Fin n => s a) S q j.1) := by
    intro K F A hK
    rw [List.map_map, List.map_map, ← List.sum_map_mul_left, ← List.sum_map_mul_right]
    refine congrArg List.sum (List.map_congr_left fun k hk => ?_)
    simp only [Function.comp_apply, hK k hk, star_mul', star_star]
    ring
  have hmem : ∀ k ∈ ((gList p Gmax G2d).map fun g => fun x => g x + q 0 * p.b 0 x + q 1 * p.b 1 x + q 2 * p.b 2 x).filter fun K =>
      decide (keK p K > 1e-10), ∀ na, expFactor (shiftPolar s S p) k na = expFactor p k na * star (shiftPhase (fun a : Fin n => s a) S q na) := by
    intro k hk na
    obtain ⟨hk, -⟩ := List.mem_filter.1 hk
    obtain ⟨g, hg, rfl⟩ := List.mem_map.1 hk
    unfold gList at hg
    obtain ⟨m, -, rfl⟩ := List.mem_map.1 hg
    exact exp_shift p hp s S m q na
  unfold einsumLR generateLongRange
  simp only [hd, hpp, hk, hf, hg, hb, h2, h3, h4]
  rw [List.map_append, List.map_append, List.sum_append, List.sum_append, mul_add, add_mul]
  refine congrArg₂ (· + ·) (key _ (factor p) (dotFactor p z qu) hmem) ?_
  rcases p.lr2d with _ | _ <;> rcases p.L with _ | l <;> rcases p.perp with _ | _ <;> simp only [List.map_nil, List.sum_nil, mul_zero, zero_mul]
  exact key _ (factorPerp p l) (dotPerp p z qu) hmem

theorem shiftPhase_zero (s : Fin n → Bool) (S : V3) (a : Fin n) : shiftPhase s S (fun _ => 0) a = 1 := by
  unfold shiftPhase phase
  split <;> simp

theorem D0_shift (p : Polar n) (hp : Dual p) (s : Nat → Bool) (S : V3) (Gmax : ℝ) (G2d : Bool) :
    D0lr (shiftPolar s S p) (gList p Gmax G2d) = D0lr p (gList p Gmax G2d) := by
  funext i j
  unfold D0lr
  have h : ∀ a, einsumLR (generateLongRange (shiftPolar s S p) (gList p Gmax G2d) (shiftPolar s S p).Z (shiftPolar s S p).Q fun _ => 0) i (a, j.2) =
      einsumLR (generateLongRange p (gList p Gmax G2d) p.Z p.Q fun _ => 0) i (a, j.2) := by
    intro a
    have := einsum_shift p hp s S Gmax G2d p.Z p.Q (fun _ => 0) i (a, j.2)
    rw [shiftPhase_zero, shiftPhase_zero, star_one, mul_one, one_mul] at this
    exact this
  simp only [h]
  rfl

/-- After `shift_atoms`, the attributes are those for the new positions, although they have not been prepared again. -/
theorem prepare_shift (p : Polar n) (hp : Dual p) (s : Nat → Bool) (S : V3) (Gmax : ℝ) (G2d : Bool) :
    prepareLR Gmax G2d (shiftPolar s S p) = prepareLR Gmax G2d p := by
  unfold prepareLR
  have h1 : gList (shiftPolar s S p) Gmax G2d = gList p Gmax G2d := rfl
  have h2 : zMass (shiftPolar s S p) = zMass p := rfl
  have h3 : qMass (shiftPolar s S p) = qMass p := rfl
  rw [h1, h2, h3, D0_shift p hp]

theorem D0_diag (p : Polar n) (G : List (Fin 3 → ℝ)) (c : Fin n → ℂ) (hc : ∀ a, c a * star (c a) = 1) (i j : Fin n × Fin 3) :
    D0lr p G i j = c i.1 * D0lr p G i j * star (c j.1) := by
  unfold D0lr
  by_cases h : i.1 = j.1
  · rw [if_pos h, h, mul_comm (c j.1), mul_assoc, hc, mul_one]
  · rw [if_neg h, mul_zero, zero_mul]

end

/-! ### Theorems -/

theorem dyn_wmat {α : Type} (l : Blocks α ℝ) (q : Fin 3 → ℝ) (a b : α) :
    dynMat l q a b = Verif.TB.wmat Complex.ofRealHom.toAddMonoidHom l q a b := by
  rw [Verif.TB.wmat_ph]
  rfl

theorem std_dyn {α : Type} [Fintype α] (l : Blocks α ℝ) (q : Fin 3 → ℝ) (a b : α) : dynMat (phStandardize 0 false l) q a b = dynMat l q a b :=
  Verif.TB.C41_bloch_ph l q a b

theorem orderP_some (o : List Int) (m : PModel) (h : Verif.TB.IsOrder m.nat o) :
    ∃ f : Fin m.nat ≃ Fin m.nat, orderP o m = some (reprepare ⟨m.nat, order (fun x => (f x.1, x.2)) m.data, orderPolar f m.p, m.lr⟩) := by
  obtain ⟨hlen, hb, hp⟩ := h
  obtain ⟨js, h1, h2⟩ := Verif.TB.mapM_pyIndex m.nat o hb
  have hl : js.length = m.nat := by rw [← h2.length_eq, hlen]
  have hnd : js.Nodup := by
    unfold List.Nodup
    rw [List.pairwise_iff_getElem] at hp ⊢
    intro i j hi hj hij he
    have hi' : i < o.length := by omega
    have hj' : j < o.length := by omega
    refine hp i j hi' hj' hij ?_
    have h3 := (List.forall₂_iff_get.1 h2).2 i hi' hi
    have h4 := (List.forall₂_iff_get.1 h2).2 j hj' hj
    simp only [List.get_eq_getElem] at h3 h4
    rw [he] at h3
    have h5 := dvd_sub h3 h4
    have h6 : o[i] - ((js[j] : ℕ) : Int) - (o[j] - ((js[j] : ℕ) : Int)) = o[i] - o[j] := by ring
    rwa [h6] at h5
  let f : Fin m.nat → Fin m.nat := fun x => js[(x : ℕ)]'(by rw [hl]; exact x.2)
  have hinj : Function.Injective f := by
    intro x y hxy
    exact Fin.ext ((hnd.getElem_inj_iff).1 hxy)
  refine ⟨Equiv.ofBijective f (Finite.injective_iff_bijective.1 hinj), ?_⟩
  unfold orderP
  rw [h1, Option.bind_some, dif_pos hl]
  rfl

/-- Bloch sums of modes of the unit cell are modes of the supercell. -/
theorem fold_mode {C n : Nat} (E : Matrix (Fin (C * n) × Fin 3) (Fin (C * n) × Fin 3) ℂ) (F : Matrix (Fin n × Fin 3) (Fin n × Fin 3) ℂ) (c : Fin C → ℂ)
    (h : ∀ (i : Fin C) (a b : Fin n × Fin 3), ∑ j : Fin C, c j * E (at' i a.1, a.2) (at' j b.1, b.2) = c i * F a b) (v : Fin n × Fin 3 → ℂ) (w : ℂ)
    (hv : F *ᵥ v = w • v) :
    E *ᵥ (fun x => c (finProdFinEquiv.symm x.1).1 * v ((finProdFinEquiv.symm x.1).2, x.2)) =
      w • fun x : Fin (C * n) × Fin 3 => c (finProdFinEquiv.symm x.1).1 * v ((finProdFinEquiv.symm x.1).2, x.2) := by
  funext X
  obtain ⟨A, x⟩ := X
  obtain ⟨⟨i, a⟩, rfl⟩ : ∃ t, finProdFinEquiv (m := C) (n := n) t = A := ⟨finProdFinEquiv.symm A, Equiv.apply_symm_apply _ A⟩
  have h3 : ∀ a, ∑ b, F a b * v b = w * v a := fun a => congrFun hv a
  show ∑ Y : Fin (C * n) × Fin 3, E (finProdFinEquiv (i, a), x) Y * (c (finProdFinEquiv.symm Y.1).1 * v ((finProdFinEquiv.symm Y.1).2, Y.2)) =
    w * (c (finProdFinEquiv.symm (finProdFinEquiv (i, a))).1 * v ((finProdFinEquiv.symm (finProdFinEquiv (i, a))).2, x))
  rw [Equiv.symm_apply_apply]
  have h12 : w * (c i * v (a, x)) = ∑ b : Fin n × Fin 3, ∑ j : Fin C, c j * E (at' i a, x) (at' j b.1, b.2) * v b := by
    rw [mul_left_comm, ← h3, Finset.mul_sum]
    refine Finset.sum_congr rfl fun b _ => ?_
    rw [← mul_assoc, ← h i (a, x) b, Finset.sum_mul]
  refine Eq.trans ?_ h12.symm
  let e : Fin C × Fin n × Fin 3 ≃ Fin (C * n) × Fin 3 := (Equiv.prodAssoc _ _ _).symm.trans (finProdFinEquiv.prodCongr (Equiv.refl (Fin 3)))
  rw [← e.sum_comp, Fintype.sum_prod_type, Finset.sum_comm]
  refine Finset.sum_congr rfl fun b _ => Finset.sum_congr rfl fun j _ => ?_
  show E (at' i a, x) (at' j b.1, b.2) * (c (finProdFinEquiv.symm (finProdFinEquiv (j, b.1))).1 * v ((finProdFinEquiv.symm (finProdFinEquiv (j, b.1))).2, b.2)) = _
  rw [Equiv.symm_apply_apply]
  ring

/-- Effect of one call: the attributes remain consistent; without supercells, the matrix is transformed by a permutation and phases;
with supercells, modes are modes of the supercell. -/
theorem call_spec (c : Call) (cs : List Call) (m : PModel) (hm : Prepared m) (ha : Allowed m.nat (c :: cs)) (hf : FineCall c m) :
    ∃ m', call c m = some m' ∧ Prepared m' ∧ Allowed m'.nat cs ∧
      (∀ q w2 v, Mode m q w2 v → ∃ v', Mode m' (foldK [c] q) w2 v') ∧
      ((∀ N1 N2 N3, c ≠ .supercell N1 N2 N3) → ∀ q, (D m' q).charpoly = (D m q).charpoly) := by
  obtain ⟨nat, data, p, lr⟩ := m
  obtain ⟨hnd, hlr⟩ := hm
  have hmode : ∀ (m m' : PModel) (q q' : Fin 3 → ℝ) (w2 : ℂ), (D m' q').charpoly = (D m q).charpoly → (∃ v, Mode m q w2 v) → ∃ v', Mode m' q' w2 v' := by
    intro m m' q q' w2 h h1
    unfold Mode at h1 ⊢
    rw [Verif.TB.eigen_iff] at h1 ⊢
    rwa [h]
  cases c with
  | standardize =>
    have h : ∀ q, D ⟨nat, phStandardize 0 false data, p, lr⟩ q = D ⟨nat, data, p, lr⟩ q := by
      intro q
      funext i j
      show dynMat (phStandardize 0 false data) q i j + _ = dynMat data q i j + _
      rw [std_dyn]
      cases lr <;> rfl
    refine ⟨_, rfl, ⟨Verif.TB.nodup_of_lex _ (Verif.TB.C41_sorted_ph 0 false data), hlr⟩, ha, fun q w2 v hv => ?_, fun _ q => ?_⟩
    · exact hmode ⟨nat, data, p, lr⟩ _ q _ w2 (congrArg _ (h q)) ⟨v, hv⟩
    · exact congrArg _ (h q)
  | shift s S =>
    have hc : ∀ q, (D ⟨nat, phStandardize 0 false (shiftBlocks (fun x => s x.1) S data), shiftPolar s S p, lr⟩ q).charpoly =
        (D ⟨nat, data, p, lr⟩ q).charpoly := by
      intro q
      have h1 : D ⟨nat, phStandardize 0 false (shiftBlocks (fun x => s x.1) S data), shiftPolar s S p, lr⟩ q =
          Matrix.diagonal (fun x : Fin nat × Fin 3 => shiftPhase (fun a : Fin nat => s a) S q x.1) * D ⟨nat, data, p, lr⟩ q *
          Matrix.diagonal (fun x : Fin nat × Fin 3 => star (shiftPhase (fun a : Fin nat => s a) S q x.1)) := by
        ext i j
        rw [Matrix.mul_diagonal, Matrix.diagonal_mul]
        show dynMat (phStandardize 0 false (shiftBlocks (fun x => s x.1) S data)) q i j + _ = _ * (dynMat data q i j + _) * _
        rw [std_dyn, mul_add, add_mul]
        refine congrArg₂ (· + ·) ?_ ?_
        · rw [dyn_wmat, dyn_wmat]
          exact Verif.TB.wsum_shift (fun x : Fin nat × Fin 3 => s x.1) S data Complex.ofRealHom.toAddMonoidHom q i j
        · cases lr with
          | none => simp
          | some l =>
            obtain ⟨h2, h3, h4⟩ := hlr (by simp)
            have h5 : l = prepareLR 28 false p := Option.some.inj h4
            have hdual : Dual p := dual_of p h2 h3
            subst h5
            show D0lr p (gList p 28 false) i j + einsumLR (generateLongRange (shiftPolar s S p) (gList p 28 false) (zMass p) (qMass p) q) i j =
              _ * (D0lr p (gList p 28 false) i j + einsumLR (generateLongRange p (gList p 28 false) (zMass p) (qMass p) q) i j) * _
            rw [einsum_shift p hdual, mul_add, add_mul]
            exact congrArg (· + _) (D0_diag p _ (shiftPhase (fun a : Fin nat => s a) S q) (Verif.TB.shiftPhase_mul_star _ S q) i j)
      have hu : Matrix.diagonal (fun x : Fin nat × Fin 3 => shiftPhase (fun a : Fin nat => s a) S q x.1) *
          Matrix.diagonal (fun x : Fin nat × Fin 3 => star (shiftPhase (fun a : Fin nat => s a) S q x.1)) = 1 := by
        rw [Matrix.diagonal_mul_diagonal]
        simp only [Verif.TB.shiftPhase_mul_star, Matrix.diagonal_one]
      rw [h1, Matrix.charpoly_mul_comm, ← Matrix.mul_assoc, mul_eq_one_comm.1 hu, Matrix.one_mul]
    refine ⟨_, rfl, ⟨Verif.TB.nodup_of_lex _ (Verif.TB.C41_sorted_ph 0 false _), fun h => ?_⟩, ha, fun q w2 v hv => ?_, fun _ q => hc q⟩
    · obtain ⟨h2, h3, h4⟩ := hlr h
      refine ⟨h2, h3, ?_⟩
      show lr = some (prepareLR 28 false (shiftPolar s S p))
      rw [prepare_shift p (dual_of p h2 h3)]
      exact h4
    · exact hmode ⟨nat, data, p, lr⟩ _ q _ w2 (hc q) ⟨v, hv⟩
  | order o =>
    obtain ⟨f, hf'⟩ := orderP_some o ⟨nat, data, p, lr⟩ ha.1
    have hcall : call (.order o) ⟨nat, data, p, lr⟩ = some ⟨nat, order (fun x => (f x.1, x.2)) data, orderPolar f p,
        lr.map fun _ => prepareLR 28 false (orderPolar f p)⟩ := by
      show orderP o _ = _
      rw [hf']
      cases lr with
      | none => rfl
      | some l =>
        obtain ⟨h2, -, -⟩ := hlr (by simp)
        show some (prepare 28 false ⟨nat, _, orderPolar f p, _⟩) = _
        unfold prepare
        simp only
        rw [setB_eq (orderPolar f p) h2]
        rfl
    have hc : ∀ q, (D ⟨nat, order (fun x => (f x.1, x.2)) data, orderPolar f p, lr.map fun _ => prepareLR 28 false (orderPolar f p)⟩ q).charpoly =
        (D ⟨nat, data, p, lr⟩ q).charpoly := by
      intro q
      have h1 : D ⟨nat, order (fun x => (f x.1, x.2)) data, orderPolar f p, lr.map fun _ => prepareLR 28 false (orderPolar f p)⟩ q =
          (D ⟨nat, data, p, lr⟩ q).submatrix (fun x : Fin nat × Fin 3 => (f x.1, x.2)) (fun x : Fin nat × Fin 3 => (f x.1, x.2)) := by
        ext i j
        show dynMat (order (fun x : Fin nat × Fin 3 => (f x.1, x.2)) data) q i j + _ = dynMat data q (f i.1, i.2) (f j.1, j.2) + _
        refine congrArg₂ (· + ·) ?_ ?_
        · rw [dyn_wmat, dyn_wmat, Verif.TB.wmat_order]
          rfl
        · cases lr with
          | none => rfl
          | some l =>
            obtain ⟨h2, h3, h4⟩ := hlr (by simp)
            have h5 : l = prepareLR 28 false p := Option.some.inj h4
            subst h5
            exact prepare_order f p 28 false q i j
      rw [h1]
      exact Matrix.charpoly_reindex (f.prodCongr (Equiv.refl (Fin 3))).symm (D ⟨nat, data, p, lr⟩ q)
    refine ⟨_, hcall, ⟨?_, fun h => ?_⟩, ha.2, fun q w2 v hv => ?_, fun _ q => hc q⟩
    · show ((order _ data).map Prod.fst).Nodup
      rw [Verif.TB.order_keys]
      exact hnd
    · cases lr with
      | none => exact absurd rfl h
      | some l =>
        obtain ⟨h2, h3, -⟩ := hlr (by simp)
        exact ⟨h2, h3, rfl⟩
    · exact hmode ⟨nat, data, p, lr⟩ _ q _ w2 (hc q) ⟨v, hv⟩
  | supercell N1 N2 N3 =>
    obtain ⟨s, hs, -, -, -, -, hlen, -⟩ := Verif.Lattice.C17_supercell N1 N2 N3 ha.1
    obtain ⟨d, hd, hnd', -⟩ := Verif.TB.C42_blocks N1 N2 N3 ha.1 s hs data hnd
    have hcall : call (.supercell N1 N2 N3) ⟨nat, data, p, lr⟩ = some ⟨s.cells.length * nat, order (fun x => ((x.1.divNat : ℕ), x.1.modNat, x.2)) d,
        superPolar s p, lr.map fun _ => prepareLR 28 false (superPolar s p)⟩ := by
      show supercellP N1 N2 N3 _ = _
      unfold supercellP
      rw [hs, Option.bind_some, hd]
      rfl
    refine ⟨_, hcall, ⟨?_, fun h => ?_⟩, ?_, fun q w2 v hv => ?_, fun h => absurd rfl (h N1 N2 N3)⟩
    · show ((order _ d).map Prod.fst).Nodup
      rw [Verif.TB.order_keys]
      exact hnd'
    · cases lr with
      | none => exact absurd rfl h
      | some l =>
        obtain ⟨h2, h3, -⟩ := hlr (by simp)
        refine ⟨rfl, ?_, rfl⟩
        show triple (Super.superA s p.a) ≠ 0
        rw [Super.triple_super ha.1 hs]
        exact mul_ne_zero (Int.cast_ne_zero.2 ha.1) h3
    · show Allowed (s.cells.length * nat) cs
      rw [hlen]
      exact ha.2
    · have hne : s.cells.length ≠ 0 := (Super.supercell_spec ha.1 hs).2.2.2.2
      refine ⟨fun x => phase (s.cells.getD (finProdFinEquiv.symm x.1).1 (0, 0, 0)) q * v ((finProdFinEquiv.symm x.1).2, x.2), ?_, ?_⟩
      · intro h
        refine hv.1 (funext fun a => ?_)
        have h1 := congrFun h (at' (⟨0, Nat.pos_of_ne_zero hne⟩ : Fin s.cells.length) a.1, a.2)
        simp only [at', Equiv.symm_apply_apply, Pi.zero_apply, mul_eq_zero] at h1
        rcases h1 with h1 | h1
        · unfold phase at h1
          exact absurd h1 (Complex.exp_ne_zero _)
        · exact h1
      · refine fold_mode _ (D ⟨nat, data, p, lr⟩ q) (fun i => phase (s.cells.getD i (0, 0, 0)) q) ?_ v w2 hv.2
        have hdm : ∀ (i : Fin s.cells.length) (a : Fin nat), (finProdFinEquiv (i, a)).divNat = i ∧ (finProdFinEquiv (i, a)).modNat = a := by
          intro i a
          have h := finProdFinEquiv.symm_apply_apply (i, a)
          exact ⟨congrArg Prod.fst h, congrArg Prod.snd h⟩
        have hord : ∀ Q (i j : Fin s.cells.length) (a b : Fin nat × Fin 3),
            dynMat (order (fun x : Fin (s.cells.length * nat) × Fin 3 => ((x.1.divNat : ℕ), x.1.modNat, x.2)) d) Q (at' i a.1, a.2) (at' j b.1, b.2) =
              dynMat d Q (i, a) (j, b) := by
          intro Q i j a b
          rw [dyn_wmat, dyn_wmat, Verif.TB.wmat_order, Matrix.submatrix_apply]
          simp only [at', (hdm _ _).1, (hdm _ _).2]
        have hfold : ∀ (i : Fin s.cells.length) (a b : Fin nat × Fin 3), ∑ j : Fin s.cells.length, phase (s.cells.getD j (0, 0, 0)) q *
            D ⟨s.cells.length * nat, order (fun x => ((x.1.divNat : ℕ), x.1.modNat, x.2)) d, superPolar s p,
              lr.map fun _ => prepareLR 28 false (superPolar s p)⟩ (superK N1 N2 N3 q) (at' i a.1, a.2) (at' j b.1, b.2) =
            phase (s.cells.getD i (0, 0, 0)) q * D ⟨nat, data, p, lr⟩ q a b := by
          intro i a b
          cases lr with
          | none =>
            have h4 := Verif.TB.C42_folding_ph N1 N2 N3 ha.1 s hs data hnd d hd q i i.2 a b
            rw [Finset.sum_range] at h4
            show ∑ j : Fin s.cells.length, phase (s.cells.getD j (0, 0, 0)) q * (dynMat (order _ d) _ _ _ + 0) = _ * (dynMat data q a b + 0)
            rw [add_zero, ← h4]
            refine Finset.sum_congr rfl fun j _ => ?_
            rw [add_zero, hord]
          | some l =>
            obtain ⟨h4, h5, h6⟩ := hlr (by simp)
            have h7 : l = prepareLR 28 false p := Option.some.inj h6
            subst h7
            obtain ⟨h8, h9, h10⟩ := hf (by simp)
            have h11 := Super.C157_dynamical_matrix ha.1 hs p (dual_of p h4 h5) h9 (h10 s hs) (fun h => h8 (h.resolve_right (by simp))) data hnd d hd q i a b
            refine Eq.trans (Finset.sum_congr rfl fun j _ => ?_) h11
            rw [← hord (superK N1 N2 N3 q) i j a b]
            rfl
        exact hfold

theorem calls_spec (cs : List Call) (m : PModel) (hm : Prepared m) (ha : Allowed m.nat cs) (hf : Fine cs m) :
    ∃ m', calls cs m = some m' ∧ Prepared m' ∧ (∀ q w2 v, Mode m q w2 v → ∃ v', Mode m' (foldK cs q) w2 v') ∧
      ((∀ N1 N2 N3, Call.supercell N1 N2 N3 ∉ cs) → ∀ q, (D m' q).charpoly = (D m q).charpoly) := by
  induction cs generalizing m with
  | nil => exact ⟨m, rfl, hm, fun q w2 v h => ⟨v, h⟩, fun _ _ => rfl⟩
  | cons c cs ih =>
    obtain ⟨m1, h1, h2, h3, h5, h6⟩ := call_spec c cs m hm ha hf.1
    obtain ⟨m2, h7, h8, h9, h10⟩ := ih m1 h2 h3 (hf.2 m1 h1)
    refine ⟨m2, ?_, h8, fun q w2 v hv => ?_, fun h q => ?_⟩
    · show (call c m).bind (calls cs) = _
      rw [h1, Option.bind_some, h7]
    · obtain ⟨v1, hv1⟩ := h5 q w2 v hv
      have hcomp : foldK (c :: cs) q = foldK cs (foldK [c] q) := by cases c <;> rfl
      rw [hcomp]
      exact h9 _ w2 v1 hv1
    · rw [h10 (fun N1 N2 N3 h' => h N1 N2 N3 (List.mem_cons_of_mem _ h')) q]
      exact h6 (fun N1 N2 N3 h' => h N1 N2 N3 (h' ▸ List.mem_cons_self)) q

/-- **C164** Any sequence of `standardize()`, `supercell(...)`, `order_atoms(...)` and `shift_atoms(...)` succeeds and leaves a model whose long-range
attributes are those `prepare_long_range()` yields for the present structure. -/
theorem C164_attributes (cs : List Call) (m : PModel) (hm : Prepared m) (ha : Allowed m.nat cs) (hf : Fine cs m) :
    ∃ m', calls cs m = some m' ∧ ∀ l, m'.lr = some l → m' = prepare 28 false m' ∧
      ∀ q i j, D m' q i j = dynMat m'.data q i j + Dlr m'.p 28 false q i j := by
  obtain ⟨m', h1, ⟨-, h2⟩, -, -⟩ := calls_spec cs m hm ha hf
  refine ⟨m', h1, fun l hl => ?_⟩
  obtain ⟨h3, -, h4⟩ := h2 (by rw [hl]; simp)
  obtain ⟨nat, data, p, lr⟩ := m'
  simp only at h3 h4
  subst h4
  constructor
  · unfold prepare
    simp only
    rw [setB_eq p h3]
  · intro q i j
    rfl

/-- **C164** If no supercells are involved, frequencies do not change at any wave vector, also with long-range terms. -/
theorem C164_spectrum (cs : List Call) (m : PModel) (hm : Prepared m) (ha : Allowed m.nat cs) (hc : ∀ N1 N2 N3, Call.supercell N1 N2 N3 ∉ cs) :
    ∃ m', calls cs m = some m' ∧ ∀ q, (D m' q).charpoly = (D m q).charpoly := by
  have hf : Fine cs m := by
    clear ha hm
    induction cs generalizing m with
    | nil => trivial
    | cons c cs ih =>
      refine ⟨?_, fun m' _ => ih m' fun N1 N2 N3 h => hc N1 N2 N3 (List.mem_cons_of_mem _ h)⟩
      cases c with
      | supercell N1 N2 N3 => exact absurd List.mem_cons_self (hc N1 N2 N3)
      | _ => trivial
  obtain ⟨m', h1, -, -, h2⟩ := calls_spec cs m hm ha hf
  exact ⟨m', h1, h2 hc⟩

/-- **C164** With supercells, all frequencies at a wave vector are found at the folded wave vector. -/
theorem C164_modes (cs : List Call) (m : PModel) (hm : Prepared m) (ha : Allowed m.nat cs) (hf : Fine cs m) :
    ∃ m', calls cs m = some m' ∧ ∀ q w2 v, Mode m q w2 v → ∃ v', Mode m' (foldK cs q) w2 v' := by
  obtain ⟨m', h1, -, h2, -⟩ := calls_spec cs m hm ha hf
  exact ⟨m', h1, h2⟩

/-- A polar crystal with three atoms. -/
noncomputable def examplePolar : PModel :=
  prepare 28 false ⟨3, [((0, 0, 0), fun a b => if a = b then 2 else 0), ((0, 0, 1), fun a b => if a = (0, 2) ∧ b = (1, 2) then -1 else 0)], skewExample, none⟩

theorem examplePolar_prepared : Prepared examplePolar := by
  refine ⟨?_, fun _ => ⟨rfl, Super.triple_ne Super.skew_dual, rfl⟩⟩
  show [((0, 0, 0) : V3), (0, 0, 1)].Nodup
  decide

/-- Atoms are moved to other cells and reordered. -/
def exampleCalls : List Call := [.shift (fun i => i == 1) (1, 0, -2), .order [-1, 0, 1], .standardize, .shift (fun i => i < 2) (0, 3, 0)]

theorem exampleCalls_allowed : Allowed examplePolar.nat exampleCalls := by
  show Allowed 3 exampleCalls
  unfold exampleCalls
  simp only [Allowed, Verif.TB.IsOrder]
  decide

example : ∃ m', calls exampleCalls examplePolar = some m' ∧ ∀ q, (D m' q).charpoly = (D examplePolar q).charpoly :=
  C164_spectrum exampleCalls examplePolar examplePolar_prepared exampleCalls_allowed (by simp [exampleCalls])

theorem superA_diagonal {k1 k2 k3 : Int} (hD : detSpec (k1, 0, 0) (0, k2, 0) (0, 0, k3) ≠ 0) {s : Supercell}
    (hs : Verif.Lattice.supercell (k1, 0, 0) (0, k2, 0) (0, 0, k3) = some s) (a : Fin 3 → Fin 3 → ℝ) (h : ∀ i j, i ≠ j → dot3 (a i) (a j) = 0)
    (i j : Fin 3) (hij : i ≠ j) : dot3 (Super.superA s a i) (Super.superA s a j) = 0 := by
  obtain ⟨e1, e2, e3, _⟩ := Super.supercell_spec hD hs
  have h5 : ∀ t, Super.superA s a t = fun x => (![(k1 : ℝ), k2, k3] t) * a t x := by
    intro t
    funext x
    unfold Super.superA
    rw [e1, e2, e3]
    fin_cases t <;> simp
  rw [h5, h5]
  have h6 := h i j hij
  unfold dot3 at h6 ⊢
  calc _ = (![(k1 : ℝ), k2, k3] i) * (![(k1 : ℝ), k2, k3] j) * ∑ x, a i x * a j x := by
        rw [Finset.mul_sum]
        exact Finset.sum_congr rfl fun x _ => by ring
    _ = 0 := by rw [h6, mul_zero]

theorem fine_call (c : Call) (cs : List Call) (m : PModel) (hm : Prepared m) (ha : Allowed m.nat (c :: cs)) (ho : Orthogonal m)
    (hd : Diagonal m.p.lr2d c) : FineCall c m := by
  cases c with
  | supercell N1 N2 N3 =>
    obtain ⟨k1, k2, k3, rfl, rfl, rfl, h⟩ := hd
    intro hlr
    obtain ⟨h1, h2, -⟩ := hm.2 hlr
    have hp := dual_of m.p h1 h2
    refine ⟨fun h3 => ?_, Super.complete_orthogonal m.p hp ho.1 ho.2 28 false, fun s hs => ?_⟩
    · rw [h h3]
      exact ⟨rfl, rfl, rfl⟩
    · exact Super.complete_orthogonal (superPolar s m.p) (Super.super_dual ha.1 hs m.p hp) (superA_diagonal ha.1 hs m.p.a ho.1) ho.2 28 false
  | _ => trivial

theorem call_orthogonal (c : Call) (cs : List Call) (m m' : PModel) (ha : Allowed m.nat (c :: cs)) (ho : Orthogonal m)
    (hd : Diagonal m.p.lr2d c) (h : call c m = some m') : Orthogonal m' ∧ m'.p.lr2d = m.p.lr2d := by
  cases c with
  | standardize =>
    cases h
    exact ⟨ho, rfl⟩
  | shift s S =>
    cases h
    exact ⟨ho, rfl⟩
  | order o =>
    obtain ⟨f, hf⟩ := orderP_some o m ha.1
    have h1 : orderP o m = some m' := h
    rw [hf] at h1
    cases h1
    obtain ⟨nat, data, p, lr⟩ := m
    cases lr <;> exact ⟨ho, rfl⟩
  | supercell N1 N2 N3 =>
    obtain ⟨s, hs, -⟩ := Verif.Lattice.C17_supercell N1 N2 N3 ha.1
    obtain ⟨k1, k2, k3, rfl, rfl, rfl, -⟩ := hd
    have h1 : supercellP _ _ _ m = some m' := h
    unfold supercellP at h1
    rw [hs, Option.bind_some, Option.map_eq_some_iff] at h1
    obtain ⟨d, -, rfl⟩ := h1
    exact ⟨⟨superA_diagonal ha.1 hs m.p.a ho.1, ho.2⟩, rfl⟩

/-- **C164** For orthogonal primitive vectors and multiples of them, nothing else has to be assumed. -/
theorem C164_orthogonal (cs : List Call) (m : PModel) (hm : Prepared m) (ha : Allowed m.nat cs) (ho : Orthogonal m)
    (hd : ∀ c ∈ cs, Diagonal m.p.lr2d c) : Fine cs m := by
  induction cs generalizing m with
  | nil => trivial
  | cons c cs ih =>
    have h1 := fine_call c cs m hm ha ho (hd c (by simp))
    refine ⟨h1, fun m' hm' => ?_⟩
    obtain ⟨m1, h2, h3, h4, -⟩ := call_spec c cs m hm ha h1
    rw [h2] at hm'
    obtain rfl := Option.some.inj hm'
    obtain ⟨h5, h6⟩ := call_orthogonal c cs m m1 ha ho (hd c (by simp)) h2
    exact ih m1 h3 h4 h5 fun c hc => by
      rw [h6]
      exact hd c (by simp [hc])

/-- Atoms are moved to other cells and reordered, and supercells are set up. -/
def exampleCalls' : List Call := [.shift (fun i => i == 1) (1, 0, -2), .supercell (2, 0, 0) (0, 1, 0) (0, 0, -1), .order [-1, 0, 1, 2, 3, 4],
  .supercell (1, 0, 0) (0, 3, 0) (0, 0, 1), .shift (fun i => i < 2) (0, 3, 0)]

theorem example_allowed : Allowed examplePolar.nat exampleCalls' := by
  show Allowed 3 exampleCalls'
  unfold exampleCalls'
  simp only [Allowed, Verif.TB.IsOrder]
  decide

theorem example_fine : Fine exampleCalls' examplePolar :=
  C164_orthogonal _ _ examplePolar_prepared example_allowed ⟨Super.skew_orth, Super.skew_eps⟩ (by
    intro c hc
    simp only [exampleCalls', List.mem_cons, List.not_mem_nil, or_false] at hc
    rcases hc with rfl | rfl | rfl | rfl | rfl
    · trivial
    · exact ⟨2, 1, -1, rfl, rfl, rfl, fun h => absurd h (by decide)⟩
    · trivial
    · exact ⟨1, 3, 1, rfl, rfl, rfl, fun h => absurd h (by decide)⟩
    · trivial)

example := C164_attributes exampleCalls' examplePolar examplePolar_prepared example_allowed example_fine

example := C164_modes exampleCalls' examplePolar examplePolar_prepared example_allowed example_fine

/-- **C164** If the user has chosen another cutoff (`prepare_long_range(G_max=0)`), it is lost in `order_atoms`: already the trivial reordering changes
the dynamical matrix. -/
theorem C164_cutoff_violated : ∃ m : PModel, ∃ p0, m = prepare 0 false p0 ∧ ∃ m', call (.order [0, 1, 2]) m = some m' ∧
    ∃ i j, ∃ h : m'.nat = m.nat, D m (fun _ => 0) i j ≠ D m' (fun _ => 0) (i.1.cast h.symm, i.2) (j.1.cast h.symm, j.2) := by
  obtain ⟨-, -, -, -, hne⟩ := Super.C157_violated
  have hb : setB skewExample = skewExample := setB_eq _ (recip_eq skewExample Super.skew_dual).symm
  have hG : gList skewExample 0 false = [] := by
    unfold gList
    rw [List.map_eq_nil_iff, List.filter_eq_nil_iff]
    intro m _
    rw [mul_zero, decide_eq_true_iff, not_lt]
    show 0 ≤ keK skewExample _
    have := Super.skew_eps (gVec skewExample m)
    have h2 : (0 : ℝ) ≤ ∑ x, gVec skewExample m x ^ 2 := Finset.sum_nonneg fun x _ => sq_nonneg _
    exact h2.trans this
  have hcall : call (.order [0, 1, 2]) (prepare 0 false ⟨3, [], skewExample, none⟩) =
      some ⟨3, [], skewExample, some (prepareLR 28 false skewExample)⟩ := by
    show orderP [0, 1, 2] ⟨3, [], setB skewExample, some (prepareLR 0 false (setB skewExample))⟩ = _
    have hjs : ([0, 1, 2] : List Int).mapM (pyIndex 3) = some [0, 1, 2] := by decide
    unfold orderP
    simp only
    rw [hjs, Option.bind_some, dif_pos (show ([0, 1, 2] : List (Fin 3)).length = 3 from rfl)]
    have hf : (fun x : Fin 3 => ([0, 1, 2] : List (Fin 3))[(x : ℕ)]) = fun x => x := by
      funext x
      fin_cases x <;> rfl
    rw [hf, hb]
    show some (PModel.mk 3 [] (setB skewExample) (some (prepareLR 28 false (setB skewExample)))) = _
    rw [hb]
  refine ⟨_, ⟨3, [], skewExample, none⟩, rfl, _, hcall, ((0 : Fin 3), 0), ((1 : Fin 3), 1), rfl, ?_⟩
  have h1 : D (prepare 0 false ⟨3, [], skewExample, none⟩) (fun _ => 0) ((0 : Fin 3), 0) ((1 : Fin 3), 1) = 0 := by
    show dynMat [] _ _ _ + (D0lr (setB skewExample) (gList (setB skewExample) 0 false) ((0 : Fin 3), 0) ((1 : Fin 3), 1) +
      einsumLR (generateLongRange (setB skewExample) (gList (setB skewExample) 0 false) _ _ _) _ _) = 0
    rw [hb, hG]
    simp [dynMat, Verif.Fourier.bloch, D0lr, einsumLR, generateLongRange, skewExample]
  intro h2
  rw [h1] at h2
  refine hne ?_
  have h3 : D ⟨3, [], skewExample, some (prepareLR 28 false skewExample)⟩ (fun _ => 0) ((0 : Fin 3), 0) ((1 : Fin 3), 1) =
      Dlr skewExample 28 false (fun _ => 0) (0, 0) (1, 1) := by
    show dynMat [] _ _ _ + Dlr skewExample 28 false (fun _ => 0) (0, 0) (1, 1) = _
    rw [add_eq_right]
    simp [dynMat, Verif.Fourier.bloch]
  rw [← h3]
  exact h2.symm

end Verif.Phon.Seq
