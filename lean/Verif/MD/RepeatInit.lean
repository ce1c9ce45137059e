import Verif.MD.Repeat

/-!
# Driver with the option `supercell` (C155)
-/

namespace Verif.MD.Repeat

open Matrix
open Verif.Diag Verif.Diag.Derivatives
open Verif.Lattice (V3 Supercell detSpec)
open Verif.TB (Blocks dynMat)
open Verif.ElPh (Coupling)

variable {n1 n2 n3 m1 m2 m3 nb nat nq nQ : Nat} [NeZero n1] [NeZero n2] [NeZero n3] [NeZero m1] [NeZero m2] [NeZero m3]

/-- `elphmod/md.py` 93-151: driver for the models `l`, `ph`, and `c` of electrons, phonons, and coupling. -/
noncomputable def driver (eigh : Matrix (Fin nb) (Fin nb) ℂ → (Fin nb → ℝ) × Matrix (Fin nb) (Fin nb) ℂ)
    (level : (Mesh n1 n2 n3 → Fin nb → ℝ) → ℝ) (eps : ℝ) (occ delta : ℝ → ℝ) (unscreen : Bool) (kT n : ℝ)
    (p : Fin (nq + 1) → Mesh n1 n2 n3) (l : Blocks (Fin nb) ℂ) (ph : Blocks (X nat) ℝ) (c : Coupling (X nat) (Fin nb)) :
    Driver n1 n2 n3 nb nat nq :=
  Driver.init eigh level eps occ delta unscreen kT n (fun iq => point (p iq)) (elUnit l) (fun iq => dynMat ph (point (p iq)))
    fun iq => gUnit c (p iq)

/-- `elphmod/md.py` 163-172: driver for the supercell with the models `lS`, `phS`, and `cS`; it is not unscreened again and the number of
electrons is multiplied with the number of unit cells. -/
noncomputable def superDriver (C : Nat) (eigh : Matrix (Fin (C * nb)) (Fin (C * nb)) ℂ → (Fin (C * nb) → ℝ) × Matrix (Fin (C * nb)) (Fin (C * nb)) ℂ)
    (level : (Mesh m1 m2 m3 → Fin (C * nb) → ℝ) → ℝ) (eps : ℝ) (occ delta : ℝ → ℝ) (kT n : ℝ) (P : Fin (nQ + 1) → Mesh m1 m2 m3)
    (lS : Blocks (Nat × Fin nb) ℂ) (phS : Blocks (Nat × X nat) ℝ) (cS : Coupling (Nat × X nat) (Nat × Fin nb)) :
    Driver m1 m2 m3 (C * nb) (C * nat) nQ :=
  Driver.init eigh level eps occ delta false kT (n * C) (fun iQ => point (P iQ)) (elSuper C lS)
    (fun iQ i j => dynMat phS (point (P iQ)) (index (displ.symm i)) (index (displ.symm j))) fun iQ i => gSuper cS (P iQ) (displ.symm i)

omit [NeZero n1] [NeZero n2] [NeZero n3] in
theorem center_zero : center (fun _ : X nat => (0 : ℝ)) = fun _ => 0 := by
  funext i
  unfold center
  simp

/-- State before `F0` is set. -/
noncomputable def pre (s : Driver n1 n2 n3 nb nat nq) : Driver n1 n2 n3 nb nat nq := { s with F0 := fun _ => 0 }

variable {N1 N2 N3 : V3} {s : Supercell} (hD : detSpec N1 N2 N3 ≠ 0) (hs : Verif.Lattice.supercell N1 N2 N3 = some s)
  {fold : Mesh n1 n2 n3 → Mesh m1 m2 m3} (hf : Folds N1 N2 N3 s.cells.length fold)
  {l : Blocks (Fin nb) ℂ} (hl : (l.map Prod.fst).Nodup) {lS : Blocks (Nat × Fin nb) ℂ} (hlS : Verif.TB.supercell s l = some lS)
  {ph ren : Blocks (X nat) ℝ} (hph : (ph.map Prod.fst).Nodup) (hren : (ren.map Prod.fst).Nodup) {phS renS : Blocks (Nat × X nat) ℝ}
  (hphS : Verif.TB.supercell s ph = some phS) (hrenS : Verif.TB.supercell s ren = some renS)
  {c : Coupling (X nat) (Fin nb)} (hg : Function.Injective c.Rg) (hk : Function.Injective c.Rk)
  {cS : Coupling (Nat × X nat) (Nat × Fin nb)} (hcS : Verif.ElPh.supercell s c = some cS)
  {p : Fin (nq + 1) → Mesh n1 n2 n3} {P : Fin (nQ + 1) → Mesh m1 m2 m3} (hp : ∀ iq, p iq = 0 ↔ iq = 0) (hP : ∀ iQ, P iQ = 0 ↔ iQ = 0)
  {eigh : Matrix (Fin nb) (Fin nb) ℂ → (Fin nb → ℝ) × Matrix (Fin nb) (Fin nb) ℂ} {level : (Mesh n1 n2 n3 → Fin nb → ℝ) → ℝ}
  {eighS : Matrix (Fin (s.cells.length * nb)) (Fin (s.cells.length * nb)) ℂ →
    (Fin (s.cells.length * nb) → ℝ) × Matrix (Fin (s.cells.length * nb)) (Fin (s.cells.length * nb)) ℂ}
  {levelS : (Mesh m1 m2 m3 → Fin (s.cells.length * nb) → ℝ) → ℝ} {eps : ℝ} {occ delta : ℝ → ℝ} {unscreen : Bool} {kT n : ℝ}
  {unit : Driver n1 n2 n3 nb nat nq} (hunit : unit = driver eigh level eps occ delta unscreen kT n p l ph c)
  {sup : Driver m1 m2 m3 (s.cells.length * nb) (s.cells.length * nat) nQ}
  (hsup : sup = superDriver s.cells.length eighS levelS eps occ delta kT n P lS renS cS)
  (hq2r : ∀ iq, dynMat ren (point (p iq)) = unit.C0 iq)

include hD hs hf hl hlS hren hrenS hg hk hcS hp hP hunit hsup hq2r

/-- Before `F0` is set. -/
theorem repeats_pre : Repeats fold (cellPhase s) (gUnit c) (gSuper cS) p P (pre unit) (pre sup) where
  card := hf.card
  kT := by rw [hunit, hsup]; cases unscreen <;> rfl
  n := by
    rw [hunit, hsup]
    cases unscreen
    · exact mul_comm _ _
    · exact mul_comm _ _
  q := fun iq => by
    have : (pre unit).q iq = point (p iq) := by rw [hunit]; cases unscreen <;> rfl
    rw [this]
    exact onMesh_point _
  Q := fun iQ => by
    have : (pre sup).q iQ = point (P iQ) := by rw [hsup]; rfl
    rw [this]
    exact onMesh_point _
  q0 := hp
  Q0 := hP
  H0 := fun k r a b => by
    have e1 : (pre unit).H0 = elUnit l := by rw [hunit]; cases unscreen <;> rfl
    have e2 : (pre sup).H0 = elSuper s.cells.length lS := by rw [hsup]; rfl
    rw [e1, e2]
    exact el_fold hD hs hf l hl lS hlS k r a b
  C0 := fun iq iQ hq r x y => by
    have e2 : (pre sup).C0 iQ = fun i j => dynMat renS (point (P iQ)) (index (displ.symm i)) (index (displ.symm j)) := by rw [hsup]; rfl
    have e1 : (pre unit).C0 iq = dynMat ren (point (p iq)) := (hq2r iq).symm
    rw [e1, e2, ← hq]
    simp only [Equiv.symm_apply_apply]
    exact ph_fold hD hs hf ren hren renS hrenS (p iq) r x y
  d0 := fun iq x k => by rw [hunit]; cases unscreen <;> rfl
  D0 := fun iQ i k => by
    have e2 : (pre sup).d0 iQ = fun i => gSuper cS (P iQ) (displ.symm i) := by rw [hsup]; rfl
    rw [e2]
    simp only [Equiv.symm_apply_apply]
  coupling := elph_fold hD hs hf c hg hk cS hcS
  F0 := fun r x => rfl
  u := fun r x => by
    have e1 : (pre unit).u = fun _ => 0 := by
      rw [hunit]
      cases unscreen <;> exact center_zero
    have e2 : (pre sup).u = fun _ => 0 := by
      rw [hsup]
      exact center_zero
    rw [e1, e2]

variable (h1 : Diagonalized occ unit) (h2 : Diagonalized occ sup) (hmu : sup.mu = unit.mu)

include h1 h2 hmu

/-- C155: a driver with the option `supercell` describes the repeated unit cell for all displacements and states. -/
theorem C155_init (u : X nat → ℝ) (e : Mesh n1 n2 n3 → Fin nb → ℝ) (U : Mesh n1 n2 n3 → Matrix (Fin nb) (Fin nb) ℂ) (mu : ℝ)
    (eS : Mesh m1 m2 m3 → Fin (s.cells.length * nb) → ℝ)
    (US : Mesh m1 m2 m3 → Matrix (Fin (s.cells.length * nb)) (Fin (s.cells.length * nb)) ℂ) (muS : ℝ) :
    Repeats fold (cellPhase s) (gUnit c) (gSuper cS) p P (unit.move u e U mu) (sup.move (fun i => u (displ.symm i).2) eS US muS) := by
  have h := repeats_pre hD hs hf hl hlS hren hrenS hg hk hcS hp hP hunit hsup hq2r
  have hF : ∀ r x, sup.F0 (displ (r, x)) = unit.F0 x := by
    intro r x
    have d1 : Diagonalized occ (pre unit) := ⟨h1.eig, h1.unitary, h1.number⟩
    have d2 : Diagonalized occ (pre sup) := ⟨h2.eig, h2.unitary, h2.number⟩
    have e := C155_forces (folds_fold hD hs hf) h d1 d2 hmu r x
    have e1 : unit.F0 x = -(pre unit).jacobian occ x := by
      rw [hunit]
      cases unscreen <;> rfl
    have e2 : sup.F0 (displ (r, x)) = -(pre sup).jacobian occ (displ (r, x)) := by
      rw [hsup]
      rfl
    rw [e1, e2, e]
  exact
    { card := h.card, kT := h.kT, n := h.n, q := h.q, Q := h.Q, q0 := h.q0, Q0 := h.Q0, H0 := h.H0, C0 := h.C0, d0 := h.d0, D0 := h.D0,
      coupling := h.coupling, F0 := hF, u := fun r x => by simp [Driver.move] }

include hph hphS in
/-- C155: with `unscreen=True`, the Hessian of the undisplaced supercell is given by the original force constants, even though they have
been unscreened for the unit cell and screened for the supercell. -/
theorem C155_unscreen (hun : unscreen = true) (iQ : Fin (nQ + 1)) (hall : ∀ q, fold q = P iQ → ∃ iq, p iq = q)
    (i j : X (s.cells.length * nat)) :
    sup.hessian eps occ delta iQ i j = dynMat phS (point (P iQ)) (index (displ.symm i)) (index (displ.symm j)) := by
  have h := repeats_pre hD hs hf hl hlS hren hrenS hg hk hcS hp hP hunit hsup hq2r
  have d1 : Diagonalized occ (pre unit) := ⟨h1.eig, h1.unitary, h1.number⟩
  have d2 : Diagonalized occ (pre sup) := ⟨h2.eig, h2.unitary, h2.number⟩
  refine C155_hessian_unique (folds_fold hD hs hf) h d1 d2 hmu eps delta iQ hall
    (fun i j => dynMat phS (point (P iQ)) (index (displ.symm i)) (index (displ.symm j))) ?_ i j
  intro iq hq r x y
  have e1 : (pre unit).hessian eps occ delta iq x y = dynMat ph (point (p iq)) x y := by
    have e2 : (pre unit).hessian eps occ delta = unit.hessian eps occ delta := rfl
    rw [e2, hunit, hun]
    unfold driver
    rw [C55_hessian]
  rw [e1, ← hq]
  simp only [Equiv.symm_apply_apply]
  exact ph_fold hD hs hf ph hph phS hphS (p iq) r x y

/-! ### Example -/

omit hD hs hf hl hlS hren hrenS hg hk hcS hp hP hunit hsup hq2r h1 h2 hmu in
/-- Local coupling to the displacements of one atom. -/
noncomputable def local3 : Coupling (X 1) (Fin 1) where
  ng := 1
  nk := 1
  Rg := fun _ => (0, 0, 0)
  Rk := fun _ => (0, 0, 0)
  data := fun _ _ _ _ _ => 1

omit hD hs hf hl hlS hren hrenS hg hk hcS hp hP hunit hsup hq2r h1 h2 hmu in
/-- Hypotheses of `C155_init` and `C155_unscreen`: model with one atom and orbital, two q and k points, supercell with two cells. -/
theorem example_driver (delta : ℝ → ℝ) : ∃ (s : Supercell) (fold : Mesh 2 1 1 → Mesh 1 1 1) (l : Blocks (Fin 1) ℂ) (lS : Blocks (Nat × Fin 1) ℂ)
    (ph ren : Blocks (X 1) ℝ) (phS renS : Blocks (Nat × X 1) ℝ) (cS : Coupling (Nat × X 1) (Nat × Fin 1)) (p : Fin 2 → Mesh 2 1 1)
    (P : Fin 1 → Mesh 1 1 1) (eigh : Matrix (Fin 1) (Fin 1) ℂ → (Fin 1 → ℝ) × Matrix (Fin 1) (Fin 1) ℂ) (level : (Mesh 2 1 1 → Fin 1 → ℝ) → ℝ)
    (eighS : Matrix (Fin (s.cells.length * 1)) (Fin (s.cells.length * 1)) ℂ →
      (Fin (s.cells.length * 1) → ℝ) × Matrix (Fin (s.cells.length * 1)) (Fin (s.cells.length * 1)) ℂ)
    (levelS : (Mesh 1 1 1 → Fin (s.cells.length * 1) → ℝ) → ℝ) (unit : Driver 2 1 1 1 1 1)
    (sup : Driver 1 1 1 (s.cells.length * 1) (s.cells.length * 1) 0),
    Verif.Lattice.supercell (2, 0, 0) (0, 1, 0) (0, 0, 1) = some s ∧ Folds (2, 0, 0) (0, 1, 0) (0, 0, 1) s.cells.length fold ∧
    (l.map Prod.fst).Nodup ∧ Verif.TB.supercell s l = some lS ∧ (ph.map Prod.fst).Nodup ∧ (ren.map Prod.fst).Nodup ∧
    Verif.TB.supercell s ph = some phS ∧ Verif.TB.supercell s ren = some renS ∧ Function.Injective local3.Rg ∧ Function.Injective local3.Rk ∧
    Verif.ElPh.supercell s local3 = some cS ∧ (∀ iq, p iq = 0 ↔ iq = 0) ∧ (∀ iQ, P iQ = 0 ↔ iQ = 0) ∧
    unit = driver eigh level 0 Verif.Occ.fermi delta true 1 1 p l ph local3 ∧
    sup = superDriver s.cells.length eighS levelS 0 Verif.Occ.fermi delta 1 1 P lS renS cS ∧
    (∀ iq, dynMat ren (point (p iq)) = unit.C0 iq) ∧ Diagonalized Verif.Occ.fermi unit ∧ Diagonalized Verif.Occ.fermi sup ∧ sup.mu = unit.mu ∧
    (∀ iQ q, fold q = P iQ → ∃ iq, p iq = q) ∧ Function.Bijective p ∧
    ∀ iq x y, dynMat ph (point (p iq)) x y = if x = y then 4 else 0 := by
  have hD : detSpec (2, 0, 0) (0, 1, 0) (0, 0, 1) ≠ 0 := by decide
  obtain ⟨s, hs, -⟩ := Verif.Lattice.C17_supercell _ _ _ hD
  have hf := C154_folds (n1 := 2) (n2 := 1) (n3 := 1) (m1 := 1) (m2 := 1) (m3 := 1) 2 1 1 rfl rfl rfl hs
  have hC : s.cells.length = 2 := by
    have := hf.card
    omega
  let l : Blocks (Fin 1) ℂ := [((0, 0, 0), fun _ _ => 1)]
  have hl : (l.map Prod.fst).Nodup := by simp [l]
  obtain ⟨lS, hlS⟩ : ∃ lS, Verif.TB.supercell s l = some lS := ⟨_, Verif.TB.supercell_eq hD hs l hl⟩
  obtain ⟨⟨cS, hcS⟩, -⟩ := Verif.ElPh.C78_defined _ _ _ hD s hs local3
  have hinj : Function.Injective local3.Rg := fun a b _ => Subsingleton.elim (α := Fin 1) a b
  have hinj' : Function.Injective local3.Rk := fun a b _ => Subsingleton.elim (α := Fin 1) a b
  have hph0 : ∀ k, Verif.Fourier.phase (0, 0, 0) k = 1 := by
    intro R
    simp [Verif.Fourier.phase]
  have hH : ∀ k : Mesh 2 1 1, elUnit l k = 1 := by
    intro k
    ext a b
    rw [Subsingleton.elim a b, Matrix.one_apply_eq]
    simp [elUnit, Verif.Fourier.bloch, l, hph0]
  have hU : ∀ k : Mesh 2 1 1, Diagonalizes (elUnit l k) (fun _ => 1) 1 := by
    intro k
    rw [hH]
    constructor
    · ext a b
      simp [Matrix.diagonal, Subsingleton.elim a b]
    · simp
  obtain ⟨eS, US, hUS⟩ := exists_super hD hs hf hl hlS hU
  let ph : Blocks (X 1) ℝ := [((0, 0, 0), fun x y => if x = y then 4 else 0)]
  let p : Fin 2 → Mesh 2 1 1 := fun i => (i, 0, 0)
  let eigh : Matrix (Fin 1) (Fin 1) ℂ → (Fin 1 → ℝ) × Matrix (Fin 1) (Fin 1) ℂ := fun _ => (fun _ => 1, 1)
  let level : (Mesh 2 1 1 → Fin 1 → ℝ) → ℝ := fun _ => 1
  let unit := driver eigh level 0 Verif.Occ.fermi delta true 1 1 p l ph local3
  have hreal : ∃ d : Fin 2 → X 1 → X 1 → ℝ, ∀ iq x y, (d iq x y : ℂ) = unit.C0 iq x y := by
    have key : ∀ iq x y, ∃ d : ℝ, (d : ℂ) = unit.C0 iq x y := by
      intro iq x y
      let s0 : Driver 2 1 1 1 1 1 := (⟨1, 1, fun iq => point (p iq), elUnit l, fun iq => dynMat ph (point (p iq)), fun iq => gUnit local3 (p iq),
        fun _ => 0, fun _ => 0, fun _ _ => 0, fun _ => 0, 0⟩ : Driver 2 1 1 1 1 1).diagonalize eigh level
      have h0 : unit.C0 iq x y = s0.C0 iq x y - (s0.hessian 0 Verif.Occ.fermi delta iq x y - s0.C0 iq x y) := rfl
      have hd : ∀ iq x k m n, s0.d iq x k m n = 1 := by
        intro iq x k m n
        rw [d_coupling s0 iq (p iq) (onMesh_point _)]
        show mix 1 (gUnit local3 (p iq) x k) 1 m n = 1
        simp [mix, gUnit, Verif.ElPh.fourier, local3, hph0]
      have hc0 : s0.C0 iq x y = ((if x = y then 4 else 0 : ℝ) : ℂ) := by
        show dynMat ph (point (p iq)) x y = _
        simp [dynMat, Verif.Fourier.bloch, ph, hph0]
      rw [h0, hc0]
      unfold Driver.hessian Driver.electronic selfEnergy contact piK fermiShift
      simp only [hd, hc0]
      refine ⟨(if x = y then 4 else 0) - ((2 / ((2 * 1 * 1 : Nat) : ℝ) * ∑ k, ∑ m, ∑ n, weights 0 s0.kT Verif.Occ.fermi delta none s0.e (s0.q iq) k m n) +
        (if iq = 0 then 2 / ((2 * 1 * 1 : Nat) : ℝ) * (∑ k, ∑ n, delta (s0.e k n / s0.kT) / s0.kT) * (((∑ k, ∑ n, delta (s0.e k n / s0.kT) / s0.kT) /
        (∑ k, ∑ n, delta (s0.e k n / s0.kT) / s0.kT)) * ((∑ k, ∑ n, delta (s0.e k n / s0.kT) / s0.kT) / (∑ k, ∑ n, delta (s0.e k n / s0.kT) / s0.kT))) else 0)), ?_⟩
      by_cases hq : iq = 0
      · simp [hq]
      · simp [hq]
    choose d hd using key
    exact ⟨d, hd⟩
  obtain ⟨d, hd⟩ := hreal
  let ren : Blocks (X 1) ℝ := [((0, 0, 0), fun x y => (d 0 x y + d 1 x y) / 2), ((1, 0, 0), fun x y => (d 0 x y - d 1 x y) / 2)]
  have hphn : (ph.map Prod.fst).Nodup := by simp [ph]
  have hren : (ren.map Prod.fst).Nodup := by simp [ren]
  obtain ⟨phS, hphS⟩ : ∃ lS, Verif.TB.supercell s ph = some lS := ⟨_, Verif.TB.supercell_eq hD hs ph hphn⟩
  obtain ⟨renS, hrenS⟩ : ∃ lS, Verif.TB.supercell s ren = some lS := ⟨_, Verif.TB.supercell_eq hD hs ren hren⟩
  let P : Fin 1 → Mesh 1 1 1 := fun _ => 0
  let eighS : Matrix (Fin (s.cells.length * 1)) (Fin (s.cells.length * 1)) ℂ →
      (Fin (s.cells.length * 1) → ℝ) × Matrix (Fin (s.cells.length * 1)) (Fin (s.cells.length * 1)) ℂ := fun _ => (eS 0, US 0)
  let levelS : (Mesh 1 1 1 → Fin (s.cells.length * 1) → ℝ) → ℝ := fun _ => 1
  let sup := superDriver s.cells.length eighS levelS 0 Verif.Occ.fermi delta 1 1 P lS renS cS
  have hp : ∀ iq, p iq = 0 ↔ iq = 0 := by decide
  refine ⟨s, _, l, lS, ph, ren, phS, renS, cS, p, P, eigh, level, eighS, levelS, unit, sup, hs, hf, hl, hlS, hphn, hren, hphS, hrenS, hinj, hinj',
    hcS, hp, fun iQ => ⟨fun _ => Subsingleton.elim _ _, fun _ => rfl⟩, rfl, rfl, ?_, ?_, ?_, rfl, ?_, ?_, ?_⟩
  · intro iq
    funext x y
    rw [← hd iq x y]
    unfold dynMat Verif.Fourier.bloch
    simp only [ren, hph0, List.map_cons, List.map_nil, List.sum_cons, List.sum_nil]
    fin_cases iq
    · have h1 : Verif.Fourier.phase (1, 0, 0) (point (p 0)) = 1 := by
        simp [Verif.Fourier.phase, point, p]
      simp only [Fin.zero_eta, h1]
      push_cast
      ring
    · have h1 : Verif.Fourier.phase (1, 0, 0) (point (p 1)) = -1 := by
        unfold Verif.Fourier.phase point
        simp [p]
        rw [show Complex.I * (2 * (Real.pi : ℂ) * 2⁻¹) = Real.pi * Complex.I by ring]
        exact Complex.exp_pi_mul_I
      simp only [Fin.mk_one, h1]
      push_cast
      ring
  · have hu : unit.u = fun _ => 0 := center_zero
    have hH' : ∀ k, unit.H k = elUnit l k := by
      intro k
      unfold Driver.H
      rw [hu]
      simp only [Complex.ofReal_zero, zero_smul, Finset.sum_const_zero, add_zero]
      rfl
    have he : ∀ k n, unit.e k n = 0 := fun k n => sub_self (1 : ℝ)
    refine ⟨fun k => ?_, fun k => (hU k).unitary, ?_⟩
    · rw [hH']
      refine (hU k).eig.trans ?_
      simp only [he]
      show (1 : Matrix (Fin 1) (Fin 1) ℂ) * _ = 1 * diagonal fun n => ((0 + 1 : ℝ) : ℂ)
      simp
    · simp only [he]
      show 2 / ((2 * 1 * 1 : Nat) : ℝ) * _ = 1
      simp [Verif.Occ.fermi]
      norm_num
  · have hu : sup.u = fun _ => 0 := center_zero
    have hH' : ∀ k, sup.H k = elSuper s.cells.length lS k := by
      intro k
      unfold Driver.H
      rw [hu]
      simp only [Complex.ofReal_zero, zero_smul, Finset.sum_const_zero, add_zero]
      rfl
    have h0 : ∀ k : Mesh 1 1 1, k = 0 := fun k => Subsingleton.elim _ _
    have he : ∀ k n, sup.e k n + sup.mu = eS 0 n := fun k n => sub_add_cancel _ _
    refine ⟨fun k => ?_, fun k => (hUS 0).unitary, ?_⟩
    · rw [hH', h0 k]
      simp only [he]
      exact (hUS 0).eig
    · have h3 := sum0_super hD hs hf hl hlS hU hUS fun x => Verif.Occ.fermi ((x - 1) / 1)
      have h4 : ∀ k n, sup.e k n = eS k n - 1 := fun k n => by rw [h0 k]; rfl
      simp only [h4]
      show 2 / ((1 * 1 * 1 : Nat) : ℝ) * (∑ k, ∑ n, Verif.Occ.fermi ((eS k n - 1) / 1)) = 1 * (s.cells.length : ℝ)
      rw [h3, hC]
      simp [Verif.Occ.fermi]
      norm_num
  · intro iQ q _
    obtain ⟨a, b, c⟩ := q
    exact ⟨a, Prod.ext rfl (Prod.ext (Subsingleton.elim _ _) (Subsingleton.elim _ _))⟩
  · exact ⟨fun a b hab => congrArg Prod.fst hab, fun q => ⟨q.1, Prod.ext rfl (Prod.ext (Subsingleton.elim _ _) (Subsingleton.elim _ _))⟩⟩
  · intro iq x y
    simp [dynMat, Verif.Fourier.bloch, ph, hph0]
    split_ifs <;> simp

end Verif.MD.Repeat
