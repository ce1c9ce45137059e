import Mathlib.Analysis.Calculus.FDeriv.Prod
import Mathlib.Topology.Order.IntermediateValue
import Verif.MD.Wave

/-!
# Thermodynamics: free energy as a function of temperature and number of electrons (C187)

Scripts set the attributes `kT` and `n` of an `elphmod.md.Driver` and compare the results of `free_energy`. The model is that of `MD/Model.lean` and
`MD/Optimize.lean`; `find_Fermi_level` is a parameter that depends on temperature and number of electrons.
-/

namespace Verif.MD.Thermo

open Verif.Diag
open Verif.MD.Optimize
open Verif.MD.Bounds
open Verif.MD.Differentiable (occ_anti)
open Matrix Filter Topology

variable {n1 n2 n3 nb nat nq : Nat}

/-- Assignments to the attributes `kT` and `n` of the driver (`elphmod/md.py` 105-107; for example, `examples/cdw_1d/cdw_1d.py` 20). Force constants,
coupling, and reference forces remain those obtained upon initialization. -/
def env (s : Driver n1 n2 n3 nb nat nq) (T N : ℝ) : Driver n1 n2 n3 nb nat nq := { s with kT := T, n := N }

variable (eigh : Matrix (Fin nb) (Fin nb) ℂ → (Fin nb → ℝ) × Matrix (Fin nb) (Fin nb) ℂ) (level : ℝ → ℝ → (Mesh n1 n2 n3 → Fin nb → ℝ) → ℝ)
  (occ entropy : ℝ → ℝ) (s : Driver n1 n2 n3 nb nat nq)

/-- Specification: `free_energy` as a function of temperature, number of electrons, and displacements. -/
noncomputable def F (T N : ℝ) (u : X nat → ℝ) : ℝ := E eigh (level T N) occ entropy (env s T N) u

/-- Specification: chemical potential of the electrons. -/
noncomputable def M (T N : ℝ) (u : X nat → ℝ) : ℝ := (solved eigh (level T N) (env s T N) u).mu

/-- Specification: entropy of the electrons. -/
noncomputable def S (T N : ℝ) (u : X nat → ℝ) : ℝ :=
  2 / (n1 * n2 * n3 : Nat) * ∑ k, ∑ n, entropy ((solved eigh (level T N) (env s T N) u).e k n / T)

/-- Specification: energies relative to the vacuum, which depend neither on temperature nor on the number of electrons. -/
noncomputable def bands (u : X nat → ℝ) (k : Mesh n1 n2 n3) : Fin nb → ℝ := (eigh (({ s with u := center u } : Driver n1 n2 n3 nb nat nq).H k)).1

/-- Specification: the external root finder yields the requested number of electrons (C38). -/
def Level (T N : ℝ) : Prop := ∀ e : Mesh n1 n2 n3 → Fin nb → ℝ, 2 / (n1 * n2 * n3 : Nat) * (∑ k, ∑ n, occ ((e k n - level T N e) / T)) = N

variable {eigh level occ entropy s} {delta : ℝ → ℝ}

theorem energies_eq (T N : ℝ) (u : X nat → ℝ) (k : Mesh n1 n2 n3) (n : Fin nb) :
    (solved eigh (level T N) (env s T N) u).e k n = bands eigh s u k n - M eigh level s T N u := rfl

theorem M_eq (T N : ℝ) (u : X nat → ℝ) : M eigh level s T N u = level T N (bands eigh s u) := rfl

theorem S_eq (T N : ℝ) (u : X nat → ℝ) : S eigh level entropy s T N u =
    2 / (n1 * n2 * n3 : Nat) * ∑ k, ∑ n, entropy ((bands eigh s u k n - M eigh level s T N u) / T) := rfl

variable [NeZero n1] [NeZero n2] [NeZero n3]

theorem F_eq {T : ℝ} (hT : T ≠ 0) (N : ℝ) (u : X nat → ℝ) : F eigh level occ entropy s T N u =
    2 / (n1 * n2 * n3 : Nat) * (∑ k, ∑ n, omega1 T occ entropy (bands eigh s u k n - M eigh level s T N u)) + M eigh level s T N u * N +
      0.5 * form (s.C0 0) (center u) + ∑ x, s.F0 x * center u x := by
  have := freeEnergy_eq (s := env s T N) (occ := occ) (entropy := entropy) hT (center u) (solved eigh (level T N) (env s T N) u).e
    (solved eigh (level T N) (env s T N) u).U (solved eigh (level T N) (env s T N) u).mu
  rw [grandPotential_eq] at this
  exact this

/-- Energies and temperatures below the tangent plane. -/
theorem omega1_plane {T T' : ℝ} (hT : 0 < T) (hT' : 0 < T') (h1 : ∀ x, HasDerivAt occ (-delta x) x) (h3 : ∀ x, HasDerivAt entropy (-x * delta x) x)
    (ha : Antitone occ) (x x' : ℝ) :
    omega1 T' occ entropy x' ≤ omega1 T occ entropy x - (T' - T) * entropy (x / T) + occ (x / T) * (x' - x) := by
  have key := omega1_tangent 1 one_pos occ delta entropy h1 h3 ha (x / T) (x' / T')
  unfold omega1 at key ⊢
  simp only [div_one, one_mul] at key
  have h := mul_le_mul_of_nonneg_left key hT'.le
  refine h.trans (le_of_eq ?_)
  field_simp
  ring

/-- **C187**: the free energy lies below its tangents as a function of temperature and above its tangents as a function of the number of electrons;
the slopes are entropy and chemical potential. -/
theorem C187_tangent {T T' N N' : ℝ} (hT : 0 < T) (hT' : 0 < T') (h1 : ∀ x, HasDerivAt occ (-delta x) x)
    (h3 : ∀ x, HasDerivAt entropy (-x * delta x) x) (ha : Antitone occ) (hl : Level level occ T N) (u : X nat → ℝ) :
    F eigh level occ entropy s T' N' u ≤ F eigh level occ entropy s T N u - (T' - T) * S eigh level entropy s T N u +
      M eigh level s T' N' u * (N' - N) := by
  rw [F_eq hT.ne', F_eq hT'.ne', S_eq]
  have hn := hl (bands eigh s u)
  rw [← M_eq (eigh := eigh) (level := level) (s := s)] at hn
  set ε := bands eigh s u
  set m := M eigh level s T N u
  set m' := M eigh level s T' N' u
  have hsum : ∑ k, ∑ n, omega1 T' occ entropy (ε k n - m') ≤ ∑ k, ∑ n, omega1 T occ entropy (ε k n - m) -
      (T' - T) * (∑ k, ∑ n, entropy ((ε k n - m) / T)) + (∑ k, ∑ n, occ ((ε k n - m) / T)) * (m - m') := by
    simp only [Finset.mul_sum, Finset.sum_mul, ← Finset.sum_sub_distrib, ← Finset.sum_add_distrib]
    refine Finset.sum_le_sum fun k _ => Finset.sum_le_sum fun n _ => ?_
    have := omega1_plane hT hT' h1 h3 ha (ε k n - m) (ε k n - m')
    rwa [show ε k n - m' - (ε k n - m) = m - m' by ring] at this
  have h := mul_le_mul_of_nonneg_left hsum (show (0 : ℝ) ≤ 2 / (n1 * n2 * n3 : Nat) by positivity)
  have e1 : 2 / ((n1 * n2 * n3 : Nat) : ℝ) * (∑ k, ∑ n, omega1 T occ entropy (ε k n - m) -
      (T' - T) * (∑ k, ∑ n, entropy ((ε k n - m) / T)) + (∑ k, ∑ n, occ ((ε k n - m) / T)) * (m - m')) =
      2 / ((n1 * n2 * n3 : Nat) : ℝ) * (∑ k, ∑ n, omega1 T occ entropy (ε k n - m)) -
      (T' - T) * (2 / ((n1 * n2 * n3 : Nat) : ℝ) * ∑ k, ∑ n, entropy ((ε k n - m) / T)) + N * (m - m') := by
    rw [← hn]
    ring
  rw [e1] at h
  linarith

/-- **C187**: heating does not lower the entropy of a structure (nonnegative heat capacity), and adding electrons does not lower the chemical potential
(nonnegative compressibility), also if both are changed at once. -/
theorem C187_stable {T T' N N' : ℝ} (hT : 0 < T) (hT' : 0 < T') (h1 : ∀ x, HasDerivAt occ (-delta x) x)
    (h3 : ∀ x, HasDerivAt entropy (-x * delta x) x) (ha : Antitone occ) (hl : Level level occ T N) (hl' : Level level occ T' N') (u : X nat → ℝ) :
    0 ≤ (T' - T) * (S eigh level entropy s T' N' u - S eigh level entropy s T N u) +
      (N' - N) * (M eigh level s T' N' u - M eigh level s T N u) := by
  have a := C187_tangent (s := s) (eigh := eigh) (N' := N') hT hT' h1 h3 ha hl u
  have b := C187_tangent (s := s) (eigh := eigh) (N' := N) hT' hT h1 h3 ha hl' u
  linarith

/-- **C187**: the free energy is a concave function of the temperature. -/
theorem C187_concave {N : ℝ} (h1 : ∀ x, HasDerivAt occ (-delta x) x) (h3 : ∀ x, HasDerivAt entropy (-x * delta x) x) (ha : Antitone occ)
    (hl : ∀ T, 0 < T → Level level occ T N) (u : X nat → ℝ) : ConcaveOn ℝ (Set.Ioi 0) fun T => F eigh level occ entropy s T N u := by
  refine ⟨convex_Ioi 0, fun x hx y hy a b ha' hb' hab => ?_⟩
  have hz : (0 : ℝ) < a • x + b • y := (convex_Ioi (0 : ℝ)) hx hy ha' hb' hab
  have e1 := C187_tangent (s := s) (eigh := eigh) (N' := N) hz hx h1 h3 ha (hl _ hz) u
  have e2 := C187_tangent (s := s) (eigh := eigh) (N' := N) hz hy h1 h3 ha (hl _ hz) u
  simp only [smul_eq_mul] at e1 e2 ⊢
  have f1 := mul_le_mul_of_nonneg_left e1 ha'
  have f2 := mul_le_mul_of_nonneg_left e2 hb'
  obtain rfl : b = 1 - a := by linarith
  nlinarith

/-- **C187**: the free energy is a convex function of the number of electrons. -/
theorem C187_convex {T : ℝ} {A : Set ℝ} (hA : Convex ℝ A) (hT : 0 < T) (h1 : ∀ x, HasDerivAt occ (-delta x) x)
    (h3 : ∀ x, HasDerivAt entropy (-x * delta x) x) (ha : Antitone occ) (hl : ∀ N ∈ A, Level level occ T N) (u : X nat → ℝ) :
    ConvexOn ℝ A fun N => F eigh level occ entropy s T N u := by
  refine ⟨hA, fun x hx y hy a b ha' hb' hab => ?_⟩
  have e1 := C187_tangent (s := s) (eigh := eigh) (N' := a • x + b • y) hT hT h1 h3 ha (hl _ hx) u
  have e2 := C187_tangent (s := s) (eigh := eigh) (N' := a • x + b • y) hT hT h1 h3 ha (hl _ hy) u
  simp only [smul_eq_mul] at e1 e2 ⊢
  have f1 := mul_le_mul_of_nonneg_left e1 ha'
  have f2 := mul_le_mul_of_nonneg_left e2 hb'
  obtain rfl : b = 1 - a := by linarith
  nlinarith

/-- **C187**: if the entropy is nonnegative, heating does not raise the free energy. -/
theorem C187_heating {N : ℝ} (h1 : ∀ x, HasDerivAt occ (-delta x) x) (h3 : ∀ x, HasDerivAt entropy (-x * delta x) x) (ha : Antitone occ)
    (h0 : ∀ x, 0 ≤ entropy x) (hl : ∀ T, 0 < T → Level level occ T N) (u : X nat → ℝ) :
    AntitoneOn (fun T => F eigh level occ entropy s T N u) (Set.Ioi 0) := by
  intro T hT T' hT' h
  have a := C187_tangent (s := s) (eigh := eigh) (N' := N) hT hT' h1 h3 ha (hl T hT) u
  have hS : 0 ≤ S eigh level entropy s T N u := mul_nonneg (by positivity) (Finset.sum_nonneg fun k _ => Finset.sum_nonneg fun n _ => h0 _)
  have := mul_nonneg (sub_nonneg.2 h) hS
  dsimp only
  linarith

/-- **C187**: relaxed structures of two temperatures: the one for the higher temperature has neither the larger free energy nor the smaller entropy. -/
theorem C187_relaxed {T T' N : ℝ} (hT : 0 < T) (h : T < T') (h1 : ∀ x, HasDerivAt occ (-delta x) x)
    (h3 : ∀ x, HasDerivAt entropy (-x * delta x) x) (ha : Antitone occ) (h0 : ∀ x, 0 ≤ entropy x) (hl : Level level occ T N)
    (hl' : Level level occ T' N) {u u' : X nat → ℝ} (hu : ∀ v, F eigh level occ entropy s T N u ≤ F eigh level occ entropy s T N v)
    (hu' : ∀ v, F eigh level occ entropy s T' N u' ≤ F eigh level occ entropy s T' N v) :
    F eigh level occ entropy s T' N u' ≤ F eigh level occ entropy s T N u ∧
      S eigh level entropy s T N u ≤ S eigh level entropy s T' N u' := by
  have hT' := hT.trans h
  have a := C187_tangent (s := s) (eigh := eigh) (N' := N) hT hT' h1 h3 ha hl u
  have b := C187_tangent (s := s) (eigh := eigh) (N' := N) hT' hT h1 h3 ha hl' u'
  have hS : 0 ≤ S eigh level entropy s T N u := mul_nonneg (by positivity) (Finset.sum_nonneg fun k _ => Finset.sum_nonneg fun n _ => h0 _)
  have c := hu' u
  have d := hu u'
  constructor
  · have := mul_nonneg (sub_nonneg.2 h.le) hS
    linarith
  · have : 0 ≤ (T' - T) * (S eigh level entropy s T' N u' - S eigh level entropy s T N u) := by linarith
    exact sub_nonneg.1 (nonneg_of_mul_nonneg_right this (sub_pos.2 h))

/-! ### Derivatives -/

variable [NeZero nb]

theorem count_strict (hocc : StrictAnti occ) {T : ℝ} (hT : 0 < T) (x : Mesh n1 n2 n3 → Fin nb → ℝ) {a b : ℝ} (hab : a < b) :
    2 / ((n1 * n2 * n3 : Nat) : ℝ) * (∑ k, ∑ n, occ ((x k n - a) / T)) < 2 / ((n1 * n2 * n3 : Nat) : ℝ) * ∑ k, ∑ n, occ ((x k n - b) / T) := by
  have hN : (0 : ℝ) < 2 / (n1 * n2 * n3 : Nat) := by
    have : 0 < n1 * n2 * n3 := Nat.mul_pos (Nat.mul_pos (NeZero.pos n1) (NeZero.pos n2)) (NeZero.pos n3)
    exact div_pos two_pos (by exact_mod_cast this)
  refine mul_lt_mul_of_pos_left (Finset.sum_lt_sum_of_nonempty Finset.univ_nonempty fun k _ => Finset.sum_lt_sum_of_nonempty
    ⟨⟨0, NeZero.pos nb⟩, Finset.mem_univ _⟩ fun n _ => hocc ?_) hN
  exact div_lt_div_of_pos_right (by linarith) hT

/-- The chemical potential depends continuously on temperature and number of electrons. -/
theorem level_tendsto {T N : ℝ} (hT : 0 < T) (h1 : ∀ x, HasDerivAt occ (-delta x) x) (hd : ∀ x, 0 < delta x)
    (hl : ∀ᶠ p in 𝓝 (T, N), Level level occ p.1 p.2) (u : X nat → ℝ) :
    Tendsto (fun p : ℝ × ℝ => M eigh level s p.1 p.2 u) (𝓝 (T, N)) (𝓝 (M eigh level s T N u)) := by
  have hocc := occ_anti h1 hd
  have hc : Continuous occ := continuous_iff_continuousAt.2 fun x => (h1 x).continuousAt
  have hpos : ∀ᶠ p : ℝ × ℝ in 𝓝 (T, N), 0 < p.1 := (continuous_fst.tendsto (T, N)).eventually (lt_mem_nhds hT)
  have hcont : ∀ a : ℝ, Tendsto (fun p : ℝ × ℝ => 2 / ((n1 * n2 * n3 : Nat) : ℝ) * (∑ k, ∑ n, occ ((bands eigh s u k n - a) / p.1)) - p.2) (𝓝 (T, N))
      (𝓝 (2 / ((n1 * n2 * n3 : Nat) : ℝ) * (∑ k, ∑ n, occ ((bands eigh s u k n - a) / T)) - N)) := by
    intro a
    refine Tendsto.sub (Tendsto.const_mul _ (tendsto_finsetSum _ fun k _ => tendsto_finsetSum _ fun n _ => ?_)) (continuous_snd.tendsto (T, N))
    exact (hc.tendsto _).comp (Tendsto.div tendsto_const_nhds (continuous_fst.tendsto (T, N)) hT.ne')
  have h0 := hl.self_of_nhds (bands eigh s u)
  rw [← M_eq (eigh := eigh) (level := level) (s := s)] at h0
  refine tendsto_order.2 ⟨fun a ha => ?_, fun a ha => ?_⟩
  · have h2 := count_strict hocc hT (bands eigh s u) ha
    filter_upwards [hl, hpos, (hcont a).eventually (gt_mem_nhds (show _ < (0 : ℝ) by linarith))] with p hp hp0 h3
    have h4 := hp (bands eigh s u)
    rw [← M_eq (eigh := eigh) (level := level) (s := s)] at h4
    by_contra hn
    rcases (not_lt.1 hn).eq_or_lt with h5 | h5
    · rw [h5] at h4
      linarith
    · have := count_strict hocc hp0 (bands eigh s u) h5
      linarith
  · have h2 := count_strict hocc hT (bands eigh s u) ha
    filter_upwards [hl, hpos, (hcont a).eventually (lt_mem_nhds (show (0 : ℝ) < _ by linarith))] with p hp hp0 h3
    have h4 := hp (bands eigh s u)
    rw [← M_eq (eigh := eigh) (level := level) (s := s)] at h4
    by_contra hn
    rcases (not_lt.1 hn).eq_or_lt with h5 | h5
    · rw [← h5] at h4
      linarith
    · have := count_strict hocc hp0 (bands eigh s u) h5
      linarith

theorem entropy_tendsto {T N : ℝ} (hT : 0 < T) (h1 : ∀ x, HasDerivAt occ (-delta x) x) (h3 : ∀ x, HasDerivAt entropy (-x * delta x) x)
    (hd : ∀ x, 0 < delta x) (hl : ∀ᶠ p in 𝓝 (T, N), Level level occ p.1 p.2) (u : X nat → ℝ) :
    Tendsto (fun p : ℝ × ℝ => S eigh level entropy s p.1 p.2 u) (𝓝 (T, N)) (𝓝 (S eigh level entropy s T N u)) := by
  have hc : Continuous entropy := continuous_iff_continuousAt.2 fun x => (h3 x).continuousAt
  simp only [S_eq]
  refine Tendsto.const_mul _ (tendsto_finsetSum _ fun k _ => tendsto_finsetSum _ fun n _ => ?_)
  exact (hc.tendsto _).comp (Tendsto.div (tendsto_const_nhds.sub (level_tendsto hT h1 hd hl u)) (continuous_fst.tendsto (T, N)) hT.ne')

/-- **C187**: the free energy is differentiable; its derivatives with respect to temperature and number of electrons are the negative entropy and the
chemical potential, although both occupations and chemical potential change with temperature. -/
theorem C187_derivative {T N : ℝ} (hT : 0 < T) (h1 : ∀ x, HasDerivAt occ (-delta x) x) (h3 : ∀ x, HasDerivAt entropy (-x * delta x) x)
    (hd : ∀ x, 0 < delta x) (hl : ∀ᶠ p in 𝓝 (T, N), Level level occ p.1 p.2) (u : X nat → ℝ) :
    HasFDerivAt (fun p : ℝ × ℝ => F eigh level occ entropy s p.1 p.2 u)
      (-S eigh level entropy s T N u • ContinuousLinearMap.fst ℝ ℝ ℝ + M eigh level s T N u • ContinuousLinearMap.snd ℝ ℝ ℝ) (T, N) := by
  have ha : Antitone occ := (occ_anti h1 hd).antitone
  have hM := level_tendsto (s := s) (eigh := eigh) hT h1 hd hl u
  have hS := entropy_tendsto (s := s) (eigh := eigh) hT h1 h3 hd hl u
  have hpos : ∀ᶠ p : ℝ × ℝ in 𝓝 (T, N), 0 < p.1 := (continuous_fst.tendsto (T, N)).eventually (lt_mem_nhds hT)
  rw [hasFDerivAt_iff_isLittleO, Asymptotics.isLittleO_iff]
  intro c hc
  have e1 := (Metric.tendsto_nhds.1 hM) (c / 2) (half_pos hc)
  have e2 := (Metric.tendsto_nhds.1 hS) (c / 2) (half_pos hc)
  filter_upwards [hl, hpos, e1, e2] with p hp hp0 f1 f2
  have a := C187_tangent (s := s) (eigh := eigh) (N' := p.2) hT hp0 h1 h3 ha hl.self_of_nhds u
  have b := C187_tangent (s := s) (eigh := eigh) (N' := N) hp0 hT h1 h3 ha hp u
  rw [Real.dist_eq] at f1 f2
  have n1 : |p.1 - T| ≤ ‖p - (T, N)‖ := by
    have := norm_fst_le (p - (T, N))
    simpa using this
  have n2 : |p.2 - N| ≤ ‖p - (T, N)‖ := by
    have := norm_snd_le (p - (T, N))
    simpa using this
  set R := ‖p - (T, N)‖
  have g1 : |(M eigh level s p.1 p.2 u - M eigh level s T N u) * (p.2 - N)| ≤ c / 2 * R := by
    rw [abs_mul]
    exact mul_le_mul f1.le n2 (abs_nonneg _) (half_pos hc).le
  have g2 : |(S eigh level entropy s p.1 p.2 u - S eigh level entropy s T N u) * (p.1 - T)| ≤ c / 2 * R := by
    rw [abs_mul]
    exact mul_le_mul f2.le n1 (abs_nonneg _) (half_pos hc).le
  have hR : 0 ≤ c / 2 * R := mul_nonneg (half_pos hc).le (norm_nonneg _)
  rw [abs_le] at g1 g2
  rw [Real.norm_eq_abs]
  simp only [_root_.add_apply, ContinuousLinearMap.smul_apply, ContinuousLinearMap.coe_fst', ContinuousLinearMap.coe_snd', Prod.fst_sub,
    Prod.snd_sub, smul_eq_mul]
  rw [abs_le]
  constructor <;> nlinarith [g1.1, g1.2, g2.1, g2.2]

/-- **C187**: if one structure is more favorable at one temperature and another one at another temperature, there is a temperature in between at which
both have the same free energy (transition temperature). -/
theorem C187_transition {T T' N : ℝ} (hT : 0 < T) (h : T ≤ T') (h1 : ∀ x, HasDerivAt occ (-delta x) x)
    (h3 : ∀ x, HasDerivAt entropy (-x * delta x) x) (hd : ∀ x, 0 < delta x) (hl : ∀ τ, 0 < τ → ∀ᶠ p in 𝓝 (τ, N), Level level occ p.1 p.2)
    {u v : X nat → ℝ} (hlow : F eigh level occ entropy s T N u ≤ F eigh level occ entropy s T N v)
    (hhigh : F eigh level occ entropy s T' N v ≤ F eigh level occ entropy s T' N u) :
    ∃ τ ∈ Set.Icc T T', F eigh level occ entropy s τ N u = F eigh level occ entropy s τ N v := by
  have hc : ∀ w : X nat → ℝ, ContinuousOn (fun τ => F eigh level occ entropy s τ N w) (Set.Icc T T') := by
    intro w τ hτ
    have hτ0 : 0 < τ := hT.trans_le hτ.1
    have := (C187_derivative (s := s) (eigh := eigh) hτ0 h1 h3 hd (hl τ hτ0) w).continuousAt
    have h4 : ContinuousAt (fun τ : ℝ => (τ, N)) τ := by fun_prop
    exact (ContinuousAt.comp (f := fun τ : ℝ => (τ, N)) this h4).continuousWithinAt
  have hivt := intermediate_value_Icc h ((hc u).sub (hc v))
  obtain ⟨τ, hτ, h0⟩ := hivt (show (0 : ℝ) ∈ Set.Icc _ _ from ⟨by dsimp only [Pi.sub_apply]; linarith, by dsimp only [Pi.sub_apply]; linarith⟩)
  exact ⟨τ, hτ, sub_eq_zero.1 h0⟩

section examples
open Verif.Occ
open Verif.Diag.Derivatives (Diagonalizes)

/-- For Gaussian smearing, all hypotheses are met by any driver for all positive temperatures and all fillings that are neither empty nor full. -/
theorem example_thermo : ∃ (eigh : Matrix (Fin nb) (Fin nb) ℂ → (Fin nb → ℝ) × Matrix (Fin nb) (Fin nb) ℂ)
    (level : ℝ → ℝ → (Mesh n1 n2 n3 → Fin nb → ℝ) → ℝ), (∀ A : Matrix (Fin nb) (Fin nb) ℂ, Aᴴ = A → Diagonalizes A (eigh A).1 (eigh A).2) ∧
    (∀ T N : ℝ, 0 < T → 0 < N → N < 2 * nb → ∀ᶠ p in 𝓝 (T, N), Level level gauss p.1 p.2) ∧ (∀ x, HasDerivAt gauss (-gaussDelta x) x) ∧
    (∀ x, HasDerivAt gaussEntropy (-x * gaussDelta x) x) ∧ (∀ x, 0 < gaussDelta x) ∧ ∀ x, 0 ≤ gaussEntropy x := by
  obtain ⟨eigh, heigh⟩ := Wave.exists_eigh nb
  have h : ∀ T N : ℝ, ∃ level : (Mesh n1 n2 n3 → Fin nb → ℝ) → ℝ, 0 < T → 0 < N → N < 2 * nb → ∀ e,
      2 / ((n1 * n2 * n3 : Nat) : ℝ) * (∑ k, ∑ m, gauss ((e k m - level e) / T)) = N := by
    intro T N
    by_cases h : 0 < T ∧ 0 < N ∧ N < 2 * nb
    · obtain ⟨level, hlevel⟩ := Wave.exists_level (n1 := n1) (n2 := n2) (n3 := n3) T N h.1 h.2.1 h.2.2
      exact ⟨level, fun _ _ _ => hlevel⟩
    · exact ⟨fun _ => 0, fun a b c => absurd ⟨a, b, c⟩ h⟩
  choose level h using h
  have hd : ∀ x, 0 < gaussDelta x := fun x => by
    unfold gaussDelta
    positivity
  refine ⟨eigh, level, heigh, fun T N hT h0 h2 => ?_, fun x => (C36_gauss x).1, C37_gauss, hd, fun x => (half_pos (hd x)).le⟩
  have t1 : ∀ᶠ p : ℝ × ℝ in 𝓝 (T, N), 0 < p.1 := (continuous_fst.tendsto (T, N)).eventually (lt_mem_nhds hT)
  have t2 : ∀ᶠ p : ℝ × ℝ in 𝓝 (T, N), 0 < p.2 := (continuous_snd.tendsto (T, N)).eventually (lt_mem_nhds h0)
  have t3 : ∀ᶠ p : ℝ × ℝ in 𝓝 (T, N), p.2 < 2 * nb := (continuous_snd.tendsto (T, N)).eventually (gt_mem_nhds h2)
  filter_upwards [t1, t2, t3] with p a b c
  exact h p.1 p.2 a b c

/-- Half-filled bands: the free energy is a decreasing concave function of the temperature with the negative entropy as slope. -/
example (s : Driver 2 2 1 3 2 0) (u : X 2 → ℝ) : ∃ (eigh : Matrix (Fin 3) (Fin 3) ℂ → (Fin 3 → ℝ) × Matrix (Fin 3) (Fin 3) ℂ)
    (level : ℝ → ℝ → (Mesh 2 2 1 → Fin 3 → ℝ) → ℝ), AntitoneOn (fun T => F eigh level gauss gaussEntropy s T 3 u) (Set.Ioi 0) ∧
    ConcaveOn ℝ (Set.Ioi 0) (fun T => F eigh level gauss gaussEntropy s T 3 u) ∧
    ∀ T, 0 < T → HasFDerivAt (fun p : ℝ × ℝ => F eigh level gauss gaussEntropy s p.1 p.2 u)
      (-S eigh level gaussEntropy s T 3 u • ContinuousLinearMap.fst ℝ ℝ ℝ + M eigh level s T 3 u • ContinuousLinearMap.snd ℝ ℝ ℝ) (T, 3) := by
  obtain ⟨eigh, level, -, hl, h1, h3, hd, h0⟩ := example_thermo (n1 := 2) (n2 := 2) (n3 := 1) (nb := 3)
  have hl' : ∀ T, 0 < T → ∀ᶠ p in 𝓝 (T, (3 : ℝ)), Level level gauss p.1 p.2 := fun T hT => hl T 3 hT (by norm_num) (by norm_num)
  have ha : Antitone gauss := (occ_anti h1 hd).antitone
  exact ⟨eigh, level, C187_heating h1 h3 ha h0 (fun T hT => (hl' T hT).self_of_nhds) u, C187_concave h1 h3 ha (fun T hT => (hl' T hT).self_of_nhds) u,
    fun T hT => C187_derivative hT h1 h3 hd (hl' T hT) u⟩

/-- **C187**: restriction to monotonic smearing functions is necessary: with Marzari-Vanderbilt smearing, there is a filling of a single level for which
heating raises the free energy, although its entropy is consistent with its occupations (C37). -/
theorem C187_marzari (s : Driver 1 1 1 1 nat nq) (u : X nat → ℝ) : ∃ (eigh : Matrix (Fin 1) (Fin 1) ℂ → (Fin 1 → ℝ) × Matrix (Fin 1) (Fin 1) ℂ)
    (level : ℝ → ℝ → (Mesh 1 1 1 → Fin 1 → ℝ) → ℝ) (N : ℝ), (∀ A : Matrix (Fin 1) (Fin 1) ℂ, Aᴴ = A → Diagonalizes A (eigh A).1 (eigh A).2) ∧
    (∀ T, 0 < T → Level level marzariVanderbilt T N) ∧
    StrictMonoOn (fun T => F eigh level marzariVanderbilt marzariVanderbiltEntropy s T N u) (Set.Ioi 0) := by
  obtain ⟨eigh, heigh⟩ := Wave.exists_eigh 1
  have hneg : marzariVanderbiltEntropy (-2) < 0 := by
    have h1 : 1 / Real.sqrt 2 ≤ 1 := by
      rw [div_le_one (Real.sqrt_pos.2 two_pos)]
      exact Real.one_le_sqrt.2 one_le_two
    unfold marzariVanderbiltEntropy
    dsimp only
    refine div_neg_of_neg_of_pos (mul_neg_of_neg_of_pos (by linarith) (Real.exp_pos _)) (Real.sqrt_pos.2 (by positivity))
  have hx : ∀ T : ℝ, 0 < T → -(2 * T) / T = -2 := fun T hT => by field_simp
  refine ⟨eigh, fun T _ e => e 0 0 + 2 * T, 2 * marzariVanderbilt (-2), heigh, fun T hT e => ?_, ?_⟩
  · have : ∀ k : Mesh 1 1 1, ∀ n : Fin 1, (e k n - (e 0 0 + 2 * T)) / T = -2 := by
      intro k n
      rw [Subsingleton.elim k 0, Subsingleton.elim n 0, ← hx T hT]
      ring
    simp only [this]
    simp [Mesh]
  · have key : ∀ T, 0 < T → F eigh (fun T _ e => e 0 0 + 2 * T) marzariVanderbilt marzariVanderbiltEntropy s T (2 * marzariVanderbilt (-2)) u =
        -2 * T * marzariVanderbiltEntropy (-2) + (2 * marzariVanderbilt (-2) * bands eigh s u 0 0 + 0.5 * form (s.C0 0) (center u) +
          ∑ x, s.F0 x * center u x) := by
      intro T hT
      rw [F_eq hT.ne', M_eq]
      have : ∀ k : Mesh 1 1 1, ∀ n : Fin 1, bands eigh s u k n - (bands eigh s u 0 0 + 2 * T) = -(2 * T) := by
        intro k n
        rw [Subsingleton.elim k 0, Subsingleton.elim n 0]
        ring
      simp only [this, omega1, hx T hT]
      simp [Mesh]
      ring
    intro T hT T' hT' h
    dsimp only
    rw [key T hT, key T' hT']
    nlinarith

end examples

end Verif.MD.Thermo
