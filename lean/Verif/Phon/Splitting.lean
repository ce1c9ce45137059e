import Verif.Phon.Kernel
import Verif.Phon.SupercellLR

/-!
# Property C173: splitting of longitudinal and transverse optical modes
-/

namespace Verif.Phon.Splitting

open Verif.Fourier Filter Topology
open Verif.Voronoi (V3)
open Verif.Phon.Super (Dual gVec_inj)

variable {n : Nat}

/-! ### Tolerance as a parameter -/

open Classical in
/-- `elphmod/ph.py` 419-503 (`generate_long_range`) with any value of the argument `eps` (`generateLongRange` is for the default). -/
noncomputable def generateTol (p : Polar n) (tol : ℝ) (G : List (Fin 3 → ℝ)) (z : Fin n → Fin 3 → Fin 3 → ℝ)
    (qu : Option (Fin n → Fin 3 → Fin 3 → Fin 3 → ℝ)) (q : Fin 3 → ℝ) : List (ℝ × (Fin n × Fin 3 → ℂ)) :=
  let K := (G.map fun g => fun x => g x + q 0 * p.b 0 x + q 1 * p.b 1 x + q 2 * p.b 2 x).filter fun K =>
    decide (keK p K > tol)
  (K.map fun K => (factor p K, fun i => dotFactor p z qu K i.1 i.2 * expFactor p K i.1)) ++
    match p.lr2d, p.L, p.perp with
    | true, some l, true => K.map fun K => (factorPerp p l K, fun i => dotPerp p z qu K i.1 i.2 * expFactor p K i.1)
    | _, _, _ => []

/-- `D0_lr`, `elphmod/ph.py` 401-411, with any tolerance. -/
noncomputable def D0Tol (p : Polar n) (tol : ℝ) (G : List (Fin 3 → ℝ)) (i j : Fin n × Fin 3) : ℂ :=
  if i.1 = j.1 then
    let d := -∑ na2, einsumLR (generateTol p tol G p.Z p.Q fun _ => 0) i (na2, j.2)
    if p.divideMass then d / (p.M i.1 : ℂ) else d
  else 0

/-- `elphmod/ph.py` 145-180 (`D` and `D_lr`) with any tolerance (`Dfull` is for the default). -/
noncomputable def DTol (p : Polar n) (tol Gmax : ℝ) (G2d : Bool) (l : List (V3 × (Fin n × Fin 3 → Fin n × Fin 3 → ℂ)))
    (q : Fin 3 → ℝ) (i j : Fin n × Fin 3) : ℂ :=
  bloch l q i j + (D0Tol p tol (gList p Gmax G2d) i j + einsumLR (generateTol p tol (gList p Gmax G2d) (zMass p) (qMass p) q) i j)

theorem DTol_default (p : Polar n) (Gmax : ℝ) (G2d : Bool) (l : List (V3 × (Fin n × Fin 3 → Fin n × Fin 3 → ℂ))) :
    DTol p 1e-10 Gmax G2d l = Dfull p Gmax G2d l := rfl

/-! ### Specification -/

/-- Wave vector in Cartesian coordinates. -/
def wave (p : Polar n) (q : Fin 3 → ℝ) (x : Fin 3) : ℝ := q 0 * p.b 0 x + q 1 * p.b 1 x + q 2 * p.b 2 x

/-- Square root of the mass if the dynamical matrix is mass-weighted. -/
noncomputable def rootMass (p : Polar n) (a : Fin n) : ℝ := if p.divideMass then Real.sqrt (p.M a) else 1

/-- The nonanalytic term `4 π e² / Ω (K·Z)(K·Z) / (K·ε·K)`, which depends on the direction of the wave vector. -/
noncomputable def nonanalytic (p : Polar n) (K : Fin 3 → ℝ) (i j : Fin n × Fin 3) : ℝ :=
  coulomb3d p * ((∑ x, K x * p.Z i.1 x i.2) / rootMass p i.1) * ((∑ x, K x * p.Z j.1 x j.2) / rootMass p j.1) /
    ∑ x, ∑ y, K x * p.eps x y * K y

/-! ### Sum over reciprocal lattice vectors -/

/-- Contribution of one vector. -/
noncomputable def gTerm (p : Polar n) (z : Fin n → Fin 3 → Fin 3 → ℝ) (qu : Option (Fin n → Fin 3 → Fin 3 → Fin 3 → ℝ))
    (K : Fin 3 → ℝ) (i j : Fin n × Fin 3) : ℂ :=
  (factor p K : ℂ) * star (dotFactor p z qu K i.1 i.2 * expFactor p K i.1) * (dotFactor p z qu K j.1 j.2 * expFactor p K j.1)

/-- Contribution of one vector, out-of-plane part. -/
noncomputable def gTermPerp (p : Polar n) (z : Fin n → Fin 3 → Fin 3 → ℝ) (qu : Option (Fin n → Fin 3 → Fin 3 → Fin 3 → ℝ))
    (K : Fin 3 → ℝ) (i j : Fin n × Fin 3) : ℂ :=
  match p.lr2d, p.L, p.perp with
  | true, some l, true => (factorPerp p l K : ℂ) * star (dotPerp p z qu K i.1 i.2 * expFactor p K i.1) *
      (dotPerp p z qu K j.1 j.2 * expFactor p K j.1)
  | _, _, _ => 0

theorem filter_sum {α : Type} (l : List α) (P : α → Prop) [DecidablePred P] (f : α → ℂ) :
    ((l.filter fun x => decide (P x)).map f).sum = (l.map fun x => if P x then f x else 0).sum := by
  induction l with
  | nil => rfl
  | cons x l ih =>
    rw [List.filter_cons]
    by_cases h : P x
    · simp [h, ih]
    · simp [h, ih]

open Classical in
theorem einsum_tol (p : Polar n) (tol : ℝ) (G : List (Fin 3 → ℝ)) (z : Fin n → Fin 3 → Fin 3 → ℝ)
    (qu : Option (Fin n → Fin 3 → Fin 3 → Fin 3 → ℝ)) (q : Fin 3 → ℝ) (i j : Fin n × Fin 3) :
    einsumLR (generateTol p tol G z qu q) i j = (G.map fun g => if tol < keK p (g + wave p q) then
      gTerm p z qu (g + wave p q) i j + gTermPerp p z qu (g + wave p q) i j else 0).sum := by
  have hK : (fun (g : Fin 3 → ℝ) (x : Fin 3) => g x + q 0 * p.b 0 x + q 1 * p.b 1 x + q 2 * p.b 2 x) = fun g => g + wave p q := by
    funext g x
    simp only [Pi.add_apply, wave]
    ring
  have key : ∀ f : (Fin 3 → ℝ) → ℝ × (Fin n × Fin 3 → ℂ), ((((G.map fun g => g + wave p q).filter fun K => decide (keK p K > tol)).map f).map
      fun t => (t.1 : ℂ) * star (t.2 i) * t.2 j).sum = (G.map fun g => if tol < keK p (g + wave p q) then
        ((f (g + wave p q)).1 : ℂ) * star ((f (g + wave p q)).2 i) * (f (g + wave p q)).2 j else 0).sum := by
    intro f
    rw [List.map_map]
    have := filter_sum (G.map fun g => g + wave p q) (fun K => keK p K > tol) ((fun t : ℝ × (Fin n × Fin 3 → ℂ) => (t.1 : ℂ) * star (t.2 i) * t.2 j) ∘ f)
    rw [this, List.map_map]
    rfl
  unfold einsumLR generateTol gTermPerp
  simp only [hK]
  rw [List.map_append, List.sum_append, key]
  have hadd : ∀ P : (Fin 3 → ℝ) → ℂ, (G.map fun g => if tol < keK p (g + wave p q) then gTerm p z qu (g + wave p q) i j + P (g + wave p q) else 0).sum =
      (G.map fun g => if tol < keK p (g + wave p q) then gTerm p z qu (g + wave p q) i j else 0).sum +
      (G.map fun g => if tol < keK p (g + wave p q) then P (g + wave p q) else 0).sum := by
    intro P
    rw [← List.sum_map_add]
    congr 1
    apply List.map_congr_left
    intro g _
    split <;> simp
  cases h2 : p.lr2d with
  | false =>
    rw [hadd fun _ => 0]
    simp [gTerm]
  | true =>
    cases hL : p.L with
    | none =>
      rw [hadd fun _ => 0]
      simp [gTerm]
    | some l =>
      cases hp : p.perp with
      | false =>
        rw [hadd fun _ => 0]
        simp [gTerm]
      | true =>
        rw [hadd fun K => (factorPerp p l K : ℂ) * star (dotPerp p z qu K i.1 i.2 * expFactor p K i.1) *
          (dotPerp p z qu K j.1 j.2 * expFactor p K j.1)]
        simp only [key]
        rfl

theorem gList_nodup {p : Polar n} (hp : Dual p) (Gmax : ℝ) (G2d : Bool) : (gList p Gmax G2d).Nodup := by
  unfold gList
  refine List.Nodup.map_on ?_ ((nodup_box _).filter _)
  intro m _ m' _ h
  exact gVec_inj hp h

theorem keK_zero (p : Polar n) : keK p 0 = 0 := by
  unfold keK
  split <;> simp

theorem zero_mem_gList (p : Polar n) (Gmax : ℝ) (G2d : Bool) (h : 0 < scale p * Gmax) : (0 : Fin 3 → ℝ) ∈ gList p Gmax G2d := by
  unfold gList
  rw [List.mem_map]
  have e : gVec p (0, 0, 0) = 0 := by
    funext x
    simp [gVec]
  refine ⟨(0, 0, 0), ?_, e⟩
  rw [List.mem_filter, decide_eq_true_eq, e, keK_zero]
  refine ⟨?_, h⟩
  simp only [box, List.mem_flatMap, List.mem_map, Verif.Lattice.mem_irange, Prod.mk.injEq]
  exact ⟨0, by omega, 0, by omega, 0, by omega, rfl, rfl, rfl⟩

/-- Contributions of all vectors but the origin, tolerance irrelevant. -/
noncomputable def others (p : Polar n) (Gmax : ℝ) (G2d : Bool) (z : Fin n → Fin 3 → Fin 3 → ℝ)
    (qu : Option (Fin n → Fin 3 → Fin 3 → Fin 3 → ℝ)) (q : Fin 3 → ℝ) (i j : Fin n × Fin 3) : ℂ :=
  ∑ g ∈ (gList p Gmax G2d).toFinset.erase 0, (gTerm p z qu (g + wave p q) i j + gTermPerp p z qu (g + wave p q) i j)

theorem einsum_split (p : Polar n) (hp : Dual p) (tol Gmax : ℝ) (G2d : Bool) (h0 : 0 < scale p * Gmax) (z : Fin n → Fin 3 → Fin 3 → ℝ)
    (qu : Option (Fin n → Fin 3 → Fin 3 → Fin 3 → ℝ)) (q : Fin 3 → ℝ)
    (hg : ∀ g ∈ gList p Gmax G2d, g ≠ 0 → tol < keK p (g + wave p q)) (i j : Fin n × Fin 3) :
    einsumLR (generateTol p tol (gList p Gmax G2d) z qu q) i j =
      (if tol < keK p (wave p q) then gTerm p z qu (wave p q) i j + gTermPerp p z qu (wave p q) i j else 0) +
        others p Gmax G2d z qu q i j := by
  rw [einsum_tol, ← List.sum_toFinset _ (gList_nodup hp Gmax G2d),
    ← Finset.add_sum_erase _ _ (List.mem_toFinset.2 (zero_mem_gList p Gmax G2d h0)), zero_add]
  refine congrArg₂ (· + ·) ?_ ?_
  · rfl
  · unfold others
    refine Finset.sum_congr rfl fun g hg' => ?_
    rw [Finset.mem_erase, List.mem_toFinset] at hg'
    rw [if_pos (hg g hg'.2 hg'.1)]

theorem wave_zero (p : Polar n) : wave p 0 = 0 := by
  funext x
  simp [wave]

/-- The self term for a tolerance below all reciprocal lattice vectors. -/
noncomputable def D0exact (p : Polar n) (Gmax : ℝ) (G2d : Bool) (i j : Fin n × Fin 3) : ℂ :=
  if i.1 = j.1 then
    let d := -∑ na2, others p Gmax G2d p.Z p.Q 0 i (na2, j.2)
    if p.divideMass then d / (p.M i.1 : ℂ) else d
  else 0

theorem D0_tol (p : Polar n) (hp : Dual p) (tol Gmax : ℝ) (ht : 0 ≤ tol) (G2d : Bool) (h0 : 0 < scale p * Gmax)
    (hg : ∀ g ∈ gList p Gmax G2d, g ≠ 0 → tol < keK p g) (i j : Fin n × Fin 3) :
    D0Tol p tol (gList p Gmax G2d) i j = D0exact p Gmax G2d i j := by
  unfold D0Tol D0exact
  have e : ∀ j, einsumLR (generateTol p tol (gList p Gmax G2d) p.Z p.Q fun _ => 0) i j = others p Gmax G2d p.Z p.Q 0 i j := by
    intro j
    have := einsum_split p hp tol Gmax G2d h0 p.Z p.Q 0 (by simpa [wave_zero] using hg) i j
    rw [wave_zero, keK_zero, if_neg (not_lt.2 ht), zero_add] at this
    exact this
  simp only [e]

theorem continuous_wave (p : Polar n) : Continuous (wave p) := by
  unfold wave
  fun_prop

theorem continuous_keK (p : Polar n) : Continuous (keK p) := by
  unfold keK
  split <;> fun_prop

theorem continuous_bloch {α : Type} (l : List (V3 × (α → α → ℂ))) (a b : α) : Continuous fun q => bloch l q a b := by
  unfold bloch
  induction l with
  | nil => exact continuous_const
  | cons e l ih =>
    simp only [List.map_cons, List.sum_cons]
    refine Continuous.add ?_ ih
    unfold phase
    fun_prop

/-- Behavior near the center of the Brillouin zone, given the one of the first contribution. -/
theorem splitting_of (p : Polar n) (hp : Dual p) (Gmax : ℝ) (G2d : Bool) (h0 : 0 < scale p * Gmax) {η : ℝ}
    (hg : ∀ g ∈ gList p Gmax G2d, g ≠ 0 → η < keK p g) (l : List (V3 × (Fin n × Fin 3 → Fin n × Fin 3 → ℂ)))
    (i j : Fin n × Fin 3)
    (hc : ∀ g ∈ gList p Gmax G2d, g ≠ 0 → ContinuousAt (fun K => gTerm p (zMass p) (qMass p) K i j + gTermPerp p (zMass p) (qMass p) K i j) g)
    (na : (Fin 3 → ℝ) → ℂ) (hna : Tendsto (fun K => gTerm p (zMass p) (qMass p) K i j + gTermPerp p (zMass p) (qMass p) K i j - na K) (𝓝 0) (𝓝 0))
    {δ : ℝ} (hδ : 0 < δ) :
    ∃ ρ, 0 < ρ ∧ ∀ tol, 0 ≤ tol → tol ≤ η → ∀ q : Fin 3 → ℝ, (∀ x, |q x| < ρ) →
      (tol < keK p (wave p q) → ‖DTol p tol Gmax G2d l q i j - DTol p tol Gmax G2d l 0 i j - na (wave p q)‖ < δ) ∧
      (keK p (wave p q) ≤ tol → ‖DTol p tol Gmax G2d l q i j - DTol p tol Gmax G2d l 0 i j‖ < δ) := by
  have hw : Tendsto (wave p) (𝓝 0) (𝓝 0) := by
    have := (continuous_wave p).tendsto 0
    rwa [wave_zero] at this
  have hgw : ∀ g : Fin 3 → ℝ, Tendsto (fun q => g + wave p q) (𝓝 0) (𝓝 g) := by
    intro g
    have := (tendsto_const_nhds (x := g)).add hw
    rwa [add_zero] at this
  -- the part without singularity
  have hB : Tendsto (fun q => bloch l q i j + others p Gmax G2d (zMass p) (qMass p) q i j -
      (bloch l 0 i j + others p Gmax G2d (zMass p) (qMass p) 0 i j)) (𝓝 0) (𝓝 0) := by
    have h1 : Tendsto (fun q => bloch l q i j) (𝓝 0) (𝓝 (bloch l 0 i j)) := (continuous_bloch l i j).tendsto 0
    have h2 : Tendsto (fun q => others p Gmax G2d (zMass p) (qMass p) q i j) (𝓝 0) (𝓝 (others p Gmax G2d (zMass p) (qMass p) 0 i j)) := by
      unfold others
      refine tendsto_finset_sum _ fun g hg' => ?_
      rw [Finset.mem_erase, List.mem_toFinset] at hg'
      have := (hc g hg'.2 hg'.1).tendsto.comp (hgw g)
      simp only [wave_zero, add_zero]
      exact this
    have := (h1.add h2).sub (tendsto_const_nhds (x := bloch l 0 i j + others p Gmax G2d (zMass p) (qMass p) 0 i j))
    rwa [sub_self] at this
  have hA := hna.comp hw
  have hev1 : ∀ᶠ q in 𝓝 (0 : Fin 3 → ℝ), ∀ g ∈ (gList p Gmax G2d).toFinset.erase 0, η < keK p (g + wave p q) := by
    rw [Filter.eventually_all_finset]
    intro g hg'
    rw [Finset.mem_erase, List.mem_toFinset] at hg'
    exact (((continuous_keK p).tendsto g).comp (hgw g)).eventually_const_lt (hg g hg'.2 hg'.1)
  have hδ2 : 0 < δ / 2 := by linarith
  have hev2 := (tendsto_zero_iff_norm_tendsto_zero.1 hB).eventually_lt_const hδ2
  have hev3 := (tendsto_zero_iff_norm_tendsto_zero.1 hA).eventually_lt_const hδ2
  obtain ⟨ρ, hρ, h⟩ := Metric.eventually_nhds_iff.1 (hev1.and (hev2.and hev3))
  refine ⟨ρ, hρ, fun tol ht0 htη q hq => ?_⟩
  obtain ⟨h1, h2, h3⟩ := h (y := q) (by
    rw [dist_zero_right, pi_norm_lt_iff hρ]
    exact fun x => by simpa using hq x)
  have hgq : ∀ g ∈ gList p Gmax G2d, g ≠ 0 → tol < keK p (g + wave p q) := fun g hg1 hg2 =>
    lt_of_le_of_lt htη (h1 g (Finset.mem_erase.2 ⟨hg2, List.mem_toFinset.2 hg1⟩))
  have hgz : ∀ g ∈ gList p Gmax G2d, g ≠ 0 → tol < keK p (g + wave p 0) := fun g hg1 hg2 => by
    rw [wave_zero, add_zero]
    exact lt_of_le_of_lt htη (hg g hg1 hg2)
  have e0 : DTol p tol Gmax G2d l 0 i j = bloch l 0 i j + (D0Tol p tol (gList p Gmax G2d) i j + others p Gmax G2d (zMass p) (qMass p) 0 i j) := by
    unfold DTol
    rw [einsum_split p hp tol Gmax G2d h0 _ _ 0 hgz, wave_zero, keK_zero, if_neg (not_lt.2 ht0), zero_add]
  have eq : DTol p tol Gmax G2d l q i j = bloch l q i j + (D0Tol p tol (gList p Gmax G2d) i j +
      ((if tol < keK p (wave p q) then gTerm p (zMass p) (qMass p) (wave p q) i j + gTermPerp p (zMass p) (qMass p) (wave p q) i j else 0) +
        others p Gmax G2d (zMass p) (qMass p) q i j)) := by
    unfold DTol
    rw [einsum_split p hp tol Gmax G2d h0 _ _ q hgq]
  rw [e0, eq]
  constructor
  · intro hk
    rw [if_pos hk]
    refine lt_of_le_of_lt (le_trans (le_of_eq ?_) (norm_add_le _ _)) (by simpa using add_lt_add h2 h3)
    congr 1
    show _ = _ + (_ - na (wave p q))
    ring
  · intro hk
    rw [if_neg (not_lt.2 hk)]
    refine lt_of_eq_of_lt ?_ (lt_trans h2 (by linarith))
    congr 1
    ring

end Verif.Phon.Splitting
