import Verif.Fourier.Symmetry
import Verif.Fourier.Check

/-!
# Property C171: symmetries of the interpolated electron-phonon coupling

Time reversal and operations of space groups are inherited by the electron-phonon coupling at all wave vectors. Hermiticity is not.
-/

namespace Verif.Fourier

open Verif.Voronoi

/-- Factor between sampled coupling and coupling of the model. -/
noncomputable def couplingFactor (divideMass elphDivideMass : Bool) (M : ℝ) : ℂ :=
  match divideMass, elphDivideMass with
  | true, false => (Real.sqrt M : ℂ)
  | false, true => 1 / (Real.sqrt M : ℂ)
  | _, _ => 1

/-- Coefficient of the discrete Fourier transform over both meshes. -/
noncomputable def coeff2 (nq1 nq2 nq3 nk1 nk2 nk3 : Nat) (g : V3 → V3 → ℂ) (mq mk : V3) : ℂ :=
  (∑ q ∈ meshSet nq1 nq2 nq3, ∑ k ∈ meshSet nk1 nk2 nk3, g q k * (star (om3 nq1 nq2 nq3 mq q) * star (om3 nk1 nk2 nk3 mk k))) /
    (((nq1 : ℂ) * nq2 * nq3) * ((nk1 : ℂ) * nk2 * nk3))

theorem couplingDFT_coeff (nq1 nq2 nq3 nk1 nk2 nk3 : Nat) (g : V3 → V3 → ℂ) (mq mk : V3) :
    couplingDFT nq1 nq2 nq3 nk1 nk2 nk3 g mq mk = coeff2 nq1 nq2 nq3 nk1 nk2 nk3 g mq mk := by
  have hNq : star ((nq1 : ℂ) * nq2 * nq3) = (nq1 : ℂ) * nq2 * nq3 := by simp
  have hNk : star ((nk1 : ℂ) * nk2 * nk3) = (nk1 : ℂ) * nk2 * nk3 := by simp
  rw [couplingDFT, ifftn_eq, star_div₀, hNq, ← List.sum_toFinset _ (nodup_mesh3 nq1 nq2 nq3), star_sum, coeff2,
    mul_comm ((nq1 : ℂ) * nq2 * nq3) ((nk1 : ℂ) * nk2 * nk3)]
  refine Eq.trans ?_ (div_div _ ((nk1 : ℂ) * nk2 * nk3) ((nq1 : ℂ) * nq2 * nq3))
  refine congrArg (fun z => z / ((nq1 : ℂ) * nq2 * nq3)) ?_
  rw [Finset.sum_div]
  refine Finset.sum_congr rfl fun q _ => ?_
  rw [star_mul', ifftn_eq, star_div₀, hNk, ← List.sum_toFinset _ (nodup_mesh3 nk1 nk2 nk3), star_sum, div_mul_eq_mul_div]
  refine congrArg (fun z => z / ((nk1 : ℂ) * nk2 * nk3)) ?_
  refine (Finset.sum_mul _ _ _).trans (Finset.sum_congr rfl fun k _ => ?_)
  rw [star_mul', star_star, om3_comm nq1 nq2 nq3 q, om3_comm nk1 nk2 nk3 k]
  ring

/-- Electron-phonon coupling of the model as a sum over mesh points. -/
theorem coupling_mean {n p : Nat} (size : Nat) (hsize : 0 < size) (nq1 nq2 nq3 nk1 nk2 nk3 : Nat) (hq1 : 0 < nq1) (hq2 : 0 < nq2)
    (hq3 : 0 < nq3) (hk1 : 0 < nk1) (hk2 : 0 < nk2) (hk3 : 0 < nk3)
    (at' : Fin 3 → Fin 3 → ℝ) (r : Fin n → Fin 3 → ℝ) (τ : Fin p → Fin 3 → ℝ) (M : Fin p → ℝ)
    (divideMass elphDivideMass : Bool) (g : V3 → Fin p × Fin 3 → V3 → Fin n → Fin n → ℂ)
    (q k : Fin 3 → ℝ) (x : Fin p × Fin 3) (a b : Fin n) :
    let m := elphQ2r size nq1 nq2 nq3 nk1 nk2 nk3 at' r τ M divideMass elphDivideMass g
    coupling m.1 m.2.1 m.2.2 q k x a b = couplingFactor divideMass elphDivideMass (M x.1) *
      ∑ mq ∈ meshSet nq1 nq2 nq3, ∑ mk ∈ meshSet nk1 nk2 nk3, coeff2 nq1 nq2 nq3 nk1 nk2 nk3 (fun q k => g q x k a b) mq mk *
        (mean 1 nq1 nq2 nq3 (bondLength at' (r a) (τ x.1)) mq q * mean 1 nk1 nk2 nk3 (bondLength at' (r a) (r b)) mk k) := by
  intro m
  set C := coeff2 nq1 nq2 nq3 nk1 nk2 nk3 (fun q k => g q x k a b) with hC
  set F : ℂ := couplingFactor divideMass elphDivideMass (M x.1) with hF
  set Wg := wigner size nq1 nq2 nq3 at' r τ (1e-7) 1 2 with hWg
  set Wk := wigner size nk1 nk2 nk3 at' r r (1e-7) 1 2 with hWk
  have hdata : ∀ eg ek, m.2.2 eg x ek a b =
      F * (C (meshIndex 1 nq1 nq2 nq3 eg.1) (meshIndex 1 nk1 nk2 nk3 ek.1) /
        (ek.2 a b : ℂ) / (eg.2 a x.1 : ℂ)) := by
    intro eg ek
    have hdd : ∀ (dk dg : Nat) (z : ℂ), divideDegeneracy dk dg z = z / (dk : ℂ) / (dg : ℂ) := by
      intro dk dg z
      unfold divideDegeneracy
      by_cases hd : dk = 0 <;> by_cases hd' : dg = 0 <;> simp [hd, hd']
    simp only [m, elphQ2r, hdd, couplingDFT_coeff, ← hC, hF, couplingFactor]
    cases divideMass <;> cases elphDivideMass <;> simp <;> ring
  set lg := bondLength at' (r a) (τ x.1) with hlg
  set lk := bondLength at' (r a) (r b) with hlk
  have hmean : ∀ (n1 n2 n3 : Nat) (h1 : 0 < n1) (h2 : 0 < n2) (h3 : 0 < n3) (len : V3 → ℝ) (G : V3 → ℂ) (v : Fin 3 → ℝ),
      ((mesh3 n1 n2 n3).map fun m' => ((sel 1 n1 n2 n3 len m').map fun R => G (meshIndex 1 n1 n2 n3 R) * phase R v).sum /
        ((sel 1 n1 n2 n3 len m').length : ℂ)).sum = ∑ m' ∈ meshSet n1 n2 n3, G m' * mean 1 n1 n2 n3 len m' v := by
    intro n1 n2 n3 h1 h2 h3 len G v
    rw [← List.sum_toFinset _ (nodup_mesh3 n1 n2 n3)]
    refine Finset.sum_congr rfl fun m' hm' => ?_
    have hnd := sel_nodup 1 (Or.inl rfl) n1 n2 n3 h1 h2 h3 len m'
    rw [← List.sum_toFinset _ hnd, mean, List.toFinset_card_of_nodup hnd, ← mul_div_assoc, Finset.mul_sum]
    congr 1
    refine Finset.sum_congr rfl fun R hR => ?_
    have hc : meshIndex 1 n1 n2 n3 R = m' := sel_class 1 (Or.inl rfl) n1 n2 n3 len m' (List.mem_toFinset.1 hm') R (List.mem_toFinset.1 hR)
    rw [hc]
  have inner : ∀ ek : V3 × (Fin n → Fin n → Nat), (m.1.map fun eg => m.2.2 eg x ek a b * phase eg.1 q).sum =
      (∑ mq ∈ meshSet nq1 nq2 nq3, F * C mq (meshIndex 1 nk1 nk2 nk3 ek.1) * mean 1 nq1 nq2 nq3 lg mq q) / (ek.2 a b : ℂ) := by
    intro ek
    have hw := wigner_sum size hsize 1 (Or.inl rfl) nq1 nq2 nq3 hq1 hq2 hq3 at' r τ a x.1
      (fun R => F * C (meshIndex 1 nq1 nq2 nq3 R) (meshIndex 1 nk1 nk2 nk3 ek.1) / (ek.2 a b : ℂ) * phase R q)
    rw [← hWg, ← hlg, hmean nq1 nq2 nq3 hq1 hq2 hq3 lg (fun m' => F * C m' (meshIndex 1 nk1 nk2 nk3 ek.1) / (ek.2 a b : ℂ)) q] at hw
    have e1 : (m.1.map fun eg => m.2.2 eg x ek a b * phase eg.1 q) =
        Wg.map fun eg => F * C (meshIndex 1 nq1 nq2 nq3 eg.1) (meshIndex 1 nk1 nk2 nk3 ek.1) / (ek.2 a b : ℂ) * phase eg.1 q /
          (eg.2 a x.1 : ℂ) := by
      apply List.map_congr_left
      intro eg _
      rw [hdata]
      ring
    rw [e1, hw, Finset.sum_div]
    exact Finset.sum_congr rfl fun mq _ => by ring
  unfold coupling
  simp only [inner]
  have hw := wigner_sum size hsize 1 (Or.inl rfl) nk1 nk2 nk3 hk1 hk2 hk3 at' r r a b
    (fun R' => (∑ mq ∈ meshSet nq1 nq2 nq3, F * C mq (meshIndex 1 nk1 nk2 nk3 R') * mean 1 nq1 nq2 nq3 lg mq q) * phase R' k)
  rw [← hWk, ← hlk, hmean nk1 nk2 nk3 hk1 hk2 hk3 lk
    (fun m' => ∑ mq ∈ meshSet nq1 nq2 nq3, F * C mq m' * mean 1 nq1 nq2 nq3 lg mq q) k] at hw
  have e1 : (m.2.1.map fun ek => (∑ mq ∈ meshSet nq1 nq2 nq3, F * C mq (meshIndex 1 nk1 nk2 nk3 ek.1) * mean 1 nq1 nq2 nq3 lg mq q) /
      (ek.2 a b : ℂ) * phase ek.1 k) =
      Wk.map fun ek => (∑ mq ∈ meshSet nq1 nq2 nq3, F * C mq (meshIndex 1 nk1 nk2 nk3 ek.1) * mean 1 nq1 nq2 nq3 lg mq q) * phase ek.1 k /
        (ek.2 a b : ℂ) := by
    apply List.map_congr_left
    intro ek _
    ring
  rw [e1, hw, Finset.sum_comm, Finset.mul_sum]
  refine Finset.sum_congr rfl fun mk _ => ?_
  rw [Finset.sum_mul, Finset.mul_sum]
  exact Finset.sum_congr rfl fun mq _ => by ring

/-! ### Time reversal -/

theorem couplingFactor_star (d d' : Bool) (M : ℝ) : star (couplingFactor d d' M) = couplingFactor d d' M := by
  cases d <;> cases d' <;> simp [couplingFactor]

theorem neg_equiv (n1 n2 n3 : Nat) (R R' : V3) : Equivalent n1 n2 n3 R R' ↔ Equivalent n1 n2 n3 (Equiv.neg V3 R) (Equiv.neg V3 R') := by
  have key : ∀ x y : Int, -y - -x = -(y - x) := fun x y => by ring
  simp only [Equivalent, Equiv.neg_apply, Prod.fst_neg, Prod.snd_neg, key, dvd_neg]

theorem sum_negMesh (n1 n2 n3 : Nat) (h1 : 0 < n1) (h2 : 0 < n2) (h3 : 0 < n3) (f : V3 → ℂ) :
    ∑ m ∈ meshSet n1 n2 n3, f (negMesh n1 n2 n3 m) = ∑ m ∈ meshSet n1 n2 n3, f m := by
  simp only [negMesh_image]
  exact sum_image 1 (Or.inl rfl) n1 n2 n3 h1 h2 h3 (Equiv.neg V3) (neg_equiv n1 n2 n3) f

theorem coeff2_real (nq1 nq2 nq3 nk1 nk2 nk3 : Nat) (hq1 : 0 < nq1) (hq2 : 0 < nq2) (hq3 : 0 < nq3) (hk1 : 0 < nk1) (hk2 : 0 < nk2)
    (hk3 : 0 < nk3) (g : V3 → V3 → ℂ) (h : ∀ q k, IsMesh nq1 nq2 nq3 q → IsMesh nk1 nk2 nk3 k →
      g (negMesh nq1 nq2 nq3 q) (negMesh nk1 nk2 nk3 k) = star (g q k)) (mq mk : V3) :
    star (coeff2 nq1 nq2 nq3 nk1 nk2 nk3 g mq mk) = coeff2 nq1 nq2 nq3 nk1 nk2 nk3 g mq mk := by
  have hN : star (((nq1 : ℂ) * nq2 * nq3) * ((nk1 : ℂ) * nk2 * nk3)) = ((nq1 : ℂ) * nq2 * nq3) * ((nk1 : ℂ) * nk2 * nk3) := by simp
  rw [coeff2, star_div₀, hN, star_sum]
  congr 1
  rw [← sum_negMesh nq1 nq2 nq3 hq1 hq2 hq3]
  refine Finset.sum_congr rfl fun q hq => ?_
  rw [star_sum, ← sum_negMesh nk1 nk2 nk3 hk1 hk2 hk3]
  refine Finset.sum_congr rfl fun k hk => ?_
  have hq' := mem_meshSet.1 hq
  have hk' := mem_meshSet.1 hk
  rw [h q k hq' hk', om3_negMesh nq1 nq2 nq3 _ q hq', om3_negMesh nk1 nk2 nk3 _ k hk']
  simp only [star_mul', star_star]

/-- C171 (electron-phonon coupling, time reversal). If the sampled couplings at opposite mesh points are complex conjugates, so are the couplings of
the model set up by `q2r` at all opposite wave vectors. -/
theorem C171_elph_time_reversal {n p : Nat} (size : Nat) (hsize : 0 < size) (nq1 nq2 nq3 nk1 nk2 nk3 : Nat) (hq1 : 0 < nq1) (hq2 : 0 < nq2)
    (hq3 : 0 < nq3) (hk1 : 0 < nk1) (hk2 : 0 < nk2) (hk3 : 0 < nk3)
    (at' : Fin 3 → Fin 3 → ℝ) (r : Fin n → Fin 3 → ℝ) (τ : Fin p → Fin 3 → ℝ) (M : Fin p → ℝ)
    (divideMass elphDivideMass : Bool) (g : V3 → Fin p × Fin 3 → V3 → Fin n → Fin n → ℂ)
    (h : ∀ q k, IsMesh nq1 nq2 nq3 q → IsMesh nk1 nk2 nk3 k → ∀ x a b,
      g (negMesh nq1 nq2 nq3 q) x (negMesh nk1 nk2 nk3 k) a b = star (g q x k a b))
    (q k : Fin 3 → ℝ) (x : Fin p × Fin 3) (a b : Fin n) :
    let m := elphQ2r size nq1 nq2 nq3 nk1 nk2 nk3 at' r τ M divideMass elphDivideMass g
    coupling m.1 m.2.1 m.2.2 (-q) (-k) x a b = star (coupling m.1 m.2.1 m.2.2 q k x a b) := by
  intro m
  have hm := fun q k => coupling_mean size hsize nq1 nq2 nq3 nk1 nk2 nk3 hq1 hq2 hq3 hk1 hk2 hk3 at' r τ M divideMass elphDivideMass g q k x a b
  refine (hm (-q) (-k)).trans (Eq.trans ?_ (congrArg star (hm q k)).symm)
  rw [star_mul', couplingFactor_star]
  refine congrArg (fun z => couplingFactor divideMass elphDivideMass (M x.1) * z) ?_
  rw [star_sum]
  refine Finset.sum_congr rfl fun mq _ => ?_
  rw [star_sum]
  refine Finset.sum_congr rfl fun mk _ => ?_
  rw [star_mul', star_mul', coeff2_real nq1 nq2 nq3 nk1 nk2 nk3 hq1 hq2 hq3 hk1 hk2 hk3 _ (fun q k hq hk => h q k hq hk x a b) mq mk,
    mean_neg, mean_neg]

/-! ### Space groups -/

/-- Positions of orbitals and atoms. -/
def allSites {n p : Nat} (r : Fin n → Fin 3 → ℝ) (τ : Fin p → Fin 3 → ℝ) : Fin n ⊕ Fin p → Fin 3 → ℝ := Sum.elim r τ

/-- Sites of orbitals and displacements. -/
def siteOf {n p : Nat} : Fin n ⊕ (Fin p × Fin 3) → Fin n ⊕ Fin p := Sum.map (fun a => a) Prod.fst

theorem siteOf_inl {n p : Nat} (a : Fin n) : siteOf (n := n) (p := p) (.inl a) = .inl a := rfl

theorem siteOf_inr {n p : Nat} (x : Fin p × Fin 3) : siteOf (n := n) (p := p) (.inr x) = .inr x.1 := rfl

theorem allSites_inl {n p : Nat} (r : Fin n → Fin 3 → ℝ) (τ : Fin p → Fin 3 → ℝ) (a : Fin n) : allSites r τ (.inl a) = r a := rfl

theorem allSites_inr {n p : Nat} (r : Fin n → Fin 3 → ℝ) (τ : Fin p → Fin 3 → ℝ) (x : Fin p) : allSites r τ (.inr x) = τ x := rfl

/-- Couplings at the wave vectors `q`, `k` and `q'`, `k'` that are related by an operation that acts on orbitals and displacements. -/
def RelatedCoupling {n p : Nat} {at' : Fin 3 → Fin 3 → ℝ} {r : Fin n → Fin 3 → ℝ} {τ : Fin p → Fin 3 → ℝ}
    (o : Operation at' (allSites r τ) (siteOf (n := n) (p := p))) (q' k' : Fin 3 → ℝ) (g g' : Fin p × Fin 3 → Fin n → Fin n → ℂ) : Prop :=
  ∀ x a b, g' x a b = ∑ x', ∑ a', ∑ b', o.u (.inr x) (.inr x') * (o.u (.inl a) (.inl a') * star (o.u (.inl b) (.inl b'))) *
    (phase (o.t (.inr x.1) (.inr x'.1) - o.t (.inl a) (.inl a')) q' * phase (o.t (.inl b) (.inl b') - o.t (.inl a) (.inl a')) k') * g x' a' b'

/-- Bonds between orbitals and atoms. -/
def OrbitalAtom {n p : Nat} : Fin n ⊕ (Fin p × Fin 3) → Fin n ⊕ (Fin p × Fin 3) → Prop
  | .inl _, .inr _ => True
  | _, _ => False

/-- Bonds between orbitals. -/
def OrbitalOrbital {n p : Nat} : Fin n ⊕ (Fin p × Fin 3) → Fin n ⊕ (Fin p × Fin 3) → Prop
  | .inl _, .inl _ => True
  | _, _ => False

theorem sum_comm4 {α β γ δ : Type} (A : Finset α) (B : Finset β) (C : Finset γ) (D : Finset δ) (f : α → β → γ → δ → ℂ) :
    ∑ a ∈ A, ∑ b ∈ B, ∑ c ∈ C, ∑ d ∈ D, f a b c d = ∑ c ∈ C, ∑ d ∈ D, ∑ a ∈ A, ∑ b ∈ B, f a b c d := by
  rw [← Finset.sum_product' A B (fun a b => ∑ c ∈ C, ∑ d ∈ D, f a b c d), Finset.sum_comm]
  refine Finset.sum_congr rfl fun c _ => ?_
  rw [Finset.sum_comm]
  exact Finset.sum_congr rfl fun d _ => Finset.sum_product' A B (fun a b => f a b c d)

/-- Shift of phases by a bond. -/
theorem om3_bond {σ α : Type} {at' : Fin 3 → Fin 3 → ℝ} {r : σ → Fin 3 → ℝ} {site : α → σ} (o : Operation at' r site)
    (n1 n2 n3 : Nat) (h1 : 0 < n1) (h2 : 0 < n2) (h3 : 0 < n3) (a b a' b' : α) (q q' : V3)
    (hq : o.Rotated (meshK n1 n2 n3 q) (meshK n1 n2 n3 q')) (m : V3) :
    phase (o.t (site b) (site b') - o.t (site a) (site a')) (meshK n1 n2 n3 q') * star (om3 n1 n2 n3 m q') =
      star (om3 n1 n2 n3 (image 1 n1 n2 n3 (o.bond a b a' b').symm m) q) := by
  have hm : signed 1 m = m := by simp [signed]
  have hi := om3_image 1 (Or.inl rfl) n1 n2 n3 h1 h2 h3 (o.bond a b a' b').symm m q
  have hs1 : ∀ v : V3, signed 1 v = v := fun v => by simp [signed]
  rw [hs1, hs1] at hi
  rw [hi]
  set t := o.t (site b) (site b') - o.t (site a) (site a') with ht
  set R := (o.bond a b a' b').symm m with hR
  have e1 : m = o.S R + t := (bond_symm o a b a' b' m).symm
  have e2 := hq R
  rw [phase_meshK, phase_meshK] at e2
  have e3 : om3 n1 n2 n3 t q' * star (om3 n1 n2 n3 t q') = 1 := by
    rw [← om3_neg, ← om3_add, add_neg_cancel]
    simp [om3, om_zero]
  rw [e1, om3_add, e2, phase_meshK, star_mul']
  linear_combination star (om3 n1 n2 n3 R q) * e3

/-- C171 (electron-phonon coupling, space groups). If the sampled couplings at all mesh points and their images are related by an operation of a space
group, so are the couplings of the model at all wave vectors. -/
theorem C171_elph_space_group_partial {n p : Nat} (size : Nat) (hsize : 0 < size) (nq1 nq2 nq3 nk1 nk2 nk3 : Nat) (hq1 : 0 < nq1) (hq2 : 0 < nq2)
    (hq3 : 0 < nq3) (hk1 : 0 < nk1) (hk2 : 0 < nk2) (hk3 : 0 < nk3)
    (at' : Fin 3 → Fin 3 → ℝ) (r : Fin n → Fin 3 → ℝ) (τ : Fin p → Fin 3 → ℝ) (M : Fin p → ℝ)
    (divideMass elphDivideMass : Bool) (g : V3 → Fin p × Fin 3 → V3 → Fin n → Fin n → ℂ)
    (o : Operation at' (allSites r τ) (siteOf (n := n) (p := p)))
    (hcq : o.Compatible OrbitalAtom 1 nq1 nq2 nq3) (hck : o.Compatible OrbitalOrbital 1 nk1 nk2 nk3)
    (hmass : ∀ x x', o.u (.inr x) (.inr x') ≠ 0 → M x.1 = M x'.1) (κq κk : V3 → V3)
    (hκq : ∀ q, IsMesh nq1 nq2 nq3 q → IsMesh nq1 nq2 nq3 (κq q) ∧ o.Rotated (meshK nq1 nq2 nq3 q) (meshK nq1 nq2 nq3 (κq q)))
    (hκk : ∀ k, IsMesh nk1 nk2 nk3 k → IsMesh nk1 nk2 nk3 (κk k) ∧ o.Rotated (meshK nk1 nk2 nk3 k) (meshK nk1 nk2 nk3 (κk k)))
    (hg : ∀ q k, IsMesh nq1 nq2 nq3 q → IsMesh nk1 nk2 nk3 k → RelatedCoupling o (meshK nq1 nq2 nq3 (κq q)) (meshK nk1 nk2 nk3 (κk k))
      (fun x => g q x k) (fun x => g (κq q) x (κk k)))
    (q k q' k' : Fin 3 → ℝ) (hq : o.Rotated q q') (hk : o.Rotated k k') :
    let m := elphQ2r size nq1 nq2 nq3 nk1 nk2 nk3 at' r τ M divideMass elphDivideMass g
    RelatedCoupling o q' k' (coupling m.1 m.2.1 m.2.2 q k) (coupling m.1 m.2.1 m.2.2 q' k') := by
  intro m x a b
  have hm := coupling_mean size hsize nq1 nq2 nq3 nk1 nk2 nk3 hq1 hq2 hq3 hk1 hk2 hk3 at' r τ M divideMass elphDivideMass g
  -- transforms
  have hT : ∀ mq mk, coeff2 nq1 nq2 nq3 nk1 nk2 nk3 (fun q k => g q x k a b) mq mk = ∑ x', ∑ a', ∑ b',
      o.u (.inr x) (.inr x') * (o.u (.inl a) (.inl a') * star (o.u (.inl b) (.inl b'))) *
        coeff2 nq1 nq2 nq3 nk1 nk2 nk3 (fun q k => g q x' k a' b')
          (image 1 nq1 nq2 nq3 (o.bond (.inl a) (.inr x) (.inl a') (.inr x')).symm mq)
          (image 1 nk1 nk2 nk3 (o.bond (.inl a) (.inl b) (.inl a') (.inl b')).symm mk) := by
    intro mq mk
    unfold coeff2
    simp only [← mul_div_assoc, ← Finset.sum_div]
    congr 1
    rw [← rotate_sum nq1 nq2 nq3 o.S κq hκq]
    have hr : ∀ q₀, ∑ k₀ ∈ meshSet nk1 nk2 nk3, g (κq q₀) x k₀ a b * (star (om3 nq1 nq2 nq3 mq (κq q₀)) * star (om3 nk1 nk2 nk3 mk k₀)) =
        ∑ k₀ ∈ meshSet nk1 nk2 nk3, g (κq q₀) x (κk k₀) a b * (star (om3 nq1 nq2 nq3 mq (κq q₀)) * star (om3 nk1 nk2 nk3 mk (κk k₀))) :=
      fun q₀ => (rotate_sum nk1 nk2 nk3 o.S κk hκk (fun k₀ => g (κq q₀) x k₀ a b *
        (star (om3 nq1 nq2 nq3 mq (κq q₀)) * star (om3 nk1 nk2 nk3 mk k₀)))).symm
    simp only [hr, Finset.mul_sum]
    have hsw : ∀ f : Fin p × Fin 3 → Fin n → Fin n → V3 → V3 → ℂ,
        ∑ x', ∑ a', ∑ b', ∑ q₀ ∈ meshSet nq1 nq2 nq3, ∑ k₀ ∈ meshSet nk1 nk2 nk3, f x' a' b' q₀ k₀ =
        ∑ q₀ ∈ meshSet nq1 nq2 nq3, ∑ k₀ ∈ meshSet nk1 nk2 nk3, ∑ x', ∑ a', ∑ b', f x' a' b' q₀ k₀ := by
      intro f
      rw [Finset.sum_congr rfl fun x' _ => sum_comm4 Finset.univ Finset.univ (meshSet nq1 nq2 nq3) (meshSet nk1 nk2 nk3) (f x')]
      rw [Finset.sum_comm]
      exact Finset.sum_congr rfl fun q₀ _ => Finset.sum_comm
    rw [hsw]
    refine Finset.sum_congr rfl fun q₀ hq₀ => Finset.sum_congr rfl fun k₀ hk₀ => ?_
    have hq₀' := mem_meshSet.1 hq₀
    have hk₀' := mem_meshSet.1 hk₀
    have hh := hg q₀ k₀ hq₀' hk₀' x a b
    dsimp only at hh
    rw [hh]
    simp only [Finset.sum_mul]
    refine Finset.sum_congr rfl fun x' _ => Finset.sum_congr rfl fun a' _ => Finset.sum_congr rfl fun b' _ => ?_
    have b1 := om3_bond o nq1 nq2 nq3 hq1 hq2 hq3 (.inl a) (.inr x) (.inl a') (.inr x') q₀ (κq q₀) (hκq q₀ hq₀').2 mq
    have b2 := om3_bond o nk1 nk2 nk3 hk1 hk2 hk3 (.inl a) (.inl b) (.inl a') (.inl b') k₀ (κk k₀) (hκk k₀ hk₀').2 mk
    rw [← b1, ← b2]
    simp only [siteOf_inl, siteOf_inr]
    ring
  refine (hm q' k' x a b).trans ?_
  simp only [hT, Finset.sum_mul, Finset.mul_sum]
  have hsw : ∀ f : V3 → V3 → Fin p × Fin 3 → Fin n → Fin n → ℂ,
      ∑ q₀ ∈ meshSet nq1 nq2 nq3, ∑ k₀ ∈ meshSet nk1 nk2 nk3, ∑ x', ∑ a', ∑ b', f q₀ k₀ x' a' b' =
      ∑ x', ∑ a', ∑ b', ∑ q₀ ∈ meshSet nq1 nq2 nq3, ∑ k₀ ∈ meshSet nk1 nk2 nk3, f q₀ k₀ x' a' b' := by
    intro f
    rw [sum_comm4]
    refine Finset.sum_congr rfl fun x' _ => Finset.sum_congr rfl fun a' _ => ?_
    rw [Finset.sum_congr rfl fun q₀ _ => Finset.sum_comm, Finset.sum_comm]
  rw [hsw]
  refine Finset.sum_congr rfl fun x' _ => Finset.sum_congr rfl fun a' _ => Finset.sum_congr rfl fun b' _ => ?_
  by_cases hx : o.u (.inr x) (.inr x') = 0
  · simp [hx]
  by_cases ha : o.u (.inl a) (.inl a') = 0
  · simp [ha]
  by_cases hb : o.u (.inl b) (.inl b') = 0
  · simp [hb]
  have m1 := o.maps hcq (.inl a) (.inr x) (.inl a') (.inr x') trivial ha hx
  have m2 := o.maps hck (.inl a) (.inl b) (.inl a') (.inl b') trivial ha hb
  refine Eq.trans ?_ (congrArg (fun z => o.u (.inr x) (.inr x') * (o.u (.inl a) (.inl a') * star (o.u (.inl b) (.inl b'))) *
    (phase (o.t (.inr x.1) (.inr x'.1) - o.t (.inl a) (.inl a')) q' *
      phase (o.t (.inl b) (.inl b') - o.t (.inl a) (.inl a')) k') * z) (hm q k x' a' b').symm)
  rw [← sum_image 1 (Or.inl rfl) nq1 nq2 nq3 hq1 hq2 hq3 _ m1.equiv, Finset.mul_sum, Finset.mul_sum, hmass x x' hx]
  refine Finset.sum_congr rfl fun mq hmq => ?_
  have hmq' := mem_meshSet.1 hmq
  rw [← sum_image 1 (Or.inl rfl) nk1 nk2 nk3 hk1 hk2 hk3 _ m2.equiv, Finset.mul_sum, Finset.mul_sum]
  refine Finset.sum_congr rfl fun mk hmk => ?_
  have hmk' := mem_meshSet.1 hmk
  have i1 := m1.mean (Or.inl rfl) hq1 hq2 hq3 mq hmq' q'
  have i2 := m2.mean (Or.inl rfl) hk1 hk2 hk3 mk hmk' k'
  have e : ∀ (c d c' d' : Fin n ⊕ (Fin p × Fin 3)) (v v' : Fin 3 → ℝ), o.Rotated v v' → ∀ R, phase (o.bond c d c' d' R) v' =
      phase R v * phase (o.t (siteOf d) (siteOf d') - o.t (siteOf c) (siteOf c')) v' := fun c d c' d' v v' hv R => by
    rw [← hv R, ← phase_add]
    rfl
  simp only [e _ _ _ _ q q' hq, ← Finset.sum_mul] at i1
  simp only [e _ _ _ _ k k' hk, ← Finset.sum_mul] at i2
  simp only [siteOf_inl, siteOf_inr, allSites_inl, allSites_inr] at i1 i2
  rw [image_image 1 (Or.inl rfl) nq1 nq2 nq3 hq1 hq2 hq3 _ m1.equiv mq hmq', image_image 1 (Or.inl rfl) nk1 nk2 nk3 hk1 hk2 hk3 _ m2.equiv mk hmk',
    i1, i2, mean, mean]
  ring

end Verif.Fourier
