import Mathlib.Algebra.BigOperators.Field
import Mathlib.Algebra.Order.BigOperators.Ring.Finset
import Mathlib.Tactic.Linarith
import Mathlib.Tactic.Positivity
import Verif.Eliashberg.Model
import Verif.Mesh.Props

/-!
# Properties of McMillan's formula and its parameters (C94, C95)
-/

namespace Verif.Eliashberg

open Verif.Mesh

variable {nph : Nat}

/-! ## C94: parameters -/

/-- Specification: all points of the mesh. -/
noncomputable def fullMesh (n : Nat) : Finset P := Finset.Ico (0 : Int) n ×ˢ Finset.Ico (0 : Int) n

theorem mem_fullMesh (n : Nat) (p : P) : p ∈ fullMesh n ↔ OnMesh n p := by
  unfold fullMesh OnMesh
  simp [Finset.mem_product]

/-- Sums over irreducible points, weighted with the sizes of the stars, are sums over the mesh. -/
theorem star_sum (n : Nat) (angle : Angle) (F : P → ℝ) (hF : ∀ k q, OnMesh n k → OnMesh n q → SymEquiv angle n k q → F q = F k) :
    ∑ q ∈ irreducibles n angle, F q * ((images q n angle).card : ℝ) = ∑ q ∈ fullMesh n, F q := by
  have hirr : ∀ q, q ∈ irreducibles n angle → OnMesh n q := fun q hq => ((C20_irreducibles n angle q).1 hq).1
  have hpos : ∀ q, OnMesh n q → (0 : Int) < n := fun q hq => lt_of_le_of_lt hq.1.1 hq.1.2
  have himg : ∀ q, q ∈ irreducibles n angle → ∀ p ∈ images q n angle, OnMesh n p ∧ F p = F q := by
    intro q hq p hp
    have h := (C19_images q n (hpos q (hirr q hq)) angle p).1 hp
    exact ⟨⟨h.1, h.2.1⟩, hF q p (hirr q hq) ⟨h.1, h.2.1⟩ h.2.2⟩
  have h1 : ∑ q ∈ irreducibles n angle, F q * ((images q n angle).card : ℝ) =
      ∑ q ∈ irreducibles n angle, ∑ p ∈ images q n angle, F p := by
    refine Finset.sum_congr rfl fun q hq => ?_
    rw [Finset.sum_congr rfl fun p hp => (himg q hq p hp).2, Finset.sum_const, nsmul_eq_mul, mul_comm]
  rw [h1, ← Finset.sum_biUnion]
  · refine Finset.sum_congr ?_ fun _ _ => rfl
    ext p
    rw [Finset.mem_biUnion, mem_fullMesh]
    constructor
    · rintro ⟨q, hq, hp⟩
      exact (himg q hq p hp).1
    · intro hp
      obtain ⟨q, ⟨h1, h2⟩, -⟩ := C20_one_per_orbit n angle p hp
      exact ⟨q, h1, h2⟩
  · intro a ha b hb hab
    refine Finset.disjoint_left.2 fun p hpa hpb => hab ?_
    have hp := (himg a ha p hpa).1
    exact (C20_one_per_orbit n angle p hp).unique ⟨ha, hpa⟩ ⟨hb, hpb⟩

/-- Inputs with the symmetry of the lattice. -/
def Symmetric (s : Input nph) : Prop :=
  ∀ k q, OnMesh s.nq k → OnMesh s.nq q → SymEquiv .a60 s.nq k q →
    s.w2 q = s.w2 k ∧ s.g2dd q = s.g2dd k ∧ s.dd q = s.dd k

/-- Specification: contribution of a mode to the coupling strength; modes below the threshold do not contribute. -/
noncomputable def mode (s : Input nph) (q : P) (nu : Fin nph) : ℝ :=
  if s.w2 q nu < s.eps then 0 else s.g2dd q nu / s.w2 q nu

theorem V_eq (s : Input nph) (q : P) (nu : Fin nph) : s.V q nu = mode s q nu * s.weight q := by
  unfold Input.V Input.w2' mode
  split
  · simp
  · ring

theorem V_mul (s : Input nph) (q : P) (nu : Fin nph) (f : ℝ → ℝ) :
    s.V q nu * f (s.w2' q nu) = mode s q nu * f (s.w2 q nu) * s.weight q := by
  rw [V_eq]
  unfold mode Input.w2'
  split
  · simp
  · ring

/-- C94: coupling strength, logarithmic average and second moment are averages over the full mesh of q points if the inputs have the
symmetry of the lattice; modes below the threshold are left out. -/
theorem C94_full (s : Input nph) (hs : Symmetric s) :
    s.lamda = s.N0 * (∑ q ∈ fullMesh s.nq, ∑ nu, mode s q nu) / ∑ q ∈ fullMesh s.nq, s.dd q ∧
    s.wlog = Real.exp ((∑ q ∈ fullMesh s.nq, ∑ nu, mode s q nu * (Real.log (s.w2 q nu) / 2)) /
      ∑ q ∈ fullMesh s.nq, ∑ nu, mode s q nu) ∧
    s.w2nd = Real.sqrt ((∑ q ∈ fullMesh s.nq, ∑ nu, mode s q nu * s.w2 q nu) / ∑ q ∈ fullMesh s.nq, ∑ nu, mode s q nu) := by
  have hm : ∀ k q, OnMesh s.nq k → OnMesh s.nq q → SymEquiv .a60 s.nq k q → mode s q = mode s k := by
    intro k q hk hq h
    obtain ⟨h1, h2, -⟩ := hs k q hk hq h
    funext nu
    unfold mode
    rw [h1, h2]
  have hV : s.sumV = ∑ q ∈ fullMesh s.nq, ∑ nu, mode s q nu := by
    unfold Input.sumV
    rw [← star_sum s.nq .a60 (fun q => ∑ nu, mode s q nu)]
    · refine Finset.sum_congr rfl fun q _ => ?_
      rw [Finset.sum_mul]
      exact Finset.sum_congr rfl fun nu _ => V_eq s q nu
    · intro k q hk hq h
      simp only [hm k q hk hq h]
  have hd : ∑ q ∈ irreducibles s.nq .a60, s.dd q * s.weight q = ∑ q ∈ fullMesh s.nq, s.dd q := by
    rw [← star_sum s.nq .a60 s.dd fun k q hk hq h => (hs k q hk hq h).2.2]
    rfl
  have hf : ∀ f : ℝ → ℝ, ∑ q ∈ irreducibles s.nq .a60, ∑ nu, s.V q nu * f (s.w2' q nu) =
      ∑ q ∈ fullMesh s.nq, ∑ nu, mode s q nu * f (s.w2 q nu) := by
    intro f
    rw [← star_sum s.nq .a60 (fun q => ∑ nu, mode s q nu * f (s.w2 q nu))]
    · refine Finset.sum_congr rfl fun q _ => ?_
      rw [Finset.sum_mul]
      exact Finset.sum_congr rfl fun nu _ => V_mul s q nu f
    · intro k q hk hq h
      simp only [hm k q hk hq h, (hs k q hk hq h).1]
  refine ⟨?_, ?_, ?_⟩
  · unfold Input.lamda
    rw [hV, hd]
  · unfold Input.wlog
    have := hf fun x => Real.log x / 2
    simp only [← mul_div_assoc] at this ⊢
    rw [this, hV]
  · unfold Input.w2nd
    have := hf fun x => x
    rw [this, hV]

/-- Inputs as obtained from real couplings. -/
structure Physical (s : Input nph) : Prop where
  eps : 0 < s.eps
  g2dd : ∀ q ∈ irreducibles s.nq .a60, ∀ nu, 0 ≤ s.g2dd q nu
  dd : ∀ q ∈ irreducibles s.nq .a60, 0 ≤ s.dd q
  N0 : 0 ≤ s.N0

theorem w2'_pos (s : Input nph) (h : Physical s) (q : P) (nu : Fin nph) : 0 < s.w2' q nu := by
  unfold Input.w2'
  have := h.eps
  split <;> linarith

theorem V_nonneg (s : Input nph) (h : Physical s) (q : P) (hq : q ∈ irreducibles s.nq .a60) (nu : Fin nph) : 0 ≤ s.V q nu := by
  unfold Input.V
  apply div_nonneg _ (w2'_pos s h q nu).le
  split
  · exact le_refl _
  · exact mul_nonneg (h.g2dd q hq nu) (Nat.cast_nonneg _)

/-- C94: the coupling strength is not negative. -/
theorem C94_nonneg (s : Input nph) (h : Physical s) : 0 ≤ s.lamda := by
  unfold Input.lamda Input.sumV
  apply div_nonneg
  · exact mul_nonneg h.N0 (Finset.sum_nonneg fun q hq => Finset.sum_nonneg fun nu _ => V_nonneg s h q hq nu)
  · exact Finset.sum_nonneg fun q hq => mul_nonneg (h.dd q hq) (Nat.cast_nonneg _)

/-- C94: the average frequencies are between the lowest and the highest frequency that contributes, and the logarithmic average does
not exceed the second-moment average. -/
theorem C94_bounds (s : Input nph) (h : Physical s) (hV : 0 < s.sumV) (lo hi : ℝ) (hlo : 0 < lo) (hhi : 0 < hi)
    (hb : ∀ q ∈ irreducibles s.nq .a60, ∀ nu, s.eps ≤ s.w2 q nu → lo ^ 2 ≤ s.w2 q nu ∧ s.w2 q nu ≤ hi ^ 2) :
    lo ≤ s.wlog ∧ s.wlog ≤ s.w2nd ∧ s.w2nd ≤ hi := by
  have hterm : ∀ q ∈ irreducibles s.nq .a60, ∀ nu, s.V q nu = 0 ∨ lo ^ 2 ≤ s.w2' q nu ∧ s.w2' q nu ≤ hi ^ 2 := by
    intro q hq nu
    by_cases hc : s.w2 q nu < s.eps
    · left
      unfold Input.V
      rw [if_pos hc, zero_div]
    · right
      unfold Input.w2'
      rw [if_neg hc]
      exact hb q hq nu (not_lt.1 hc)
  have hm : 0 < (∑ q ∈ irreducibles s.nq .a60, ∑ nu, s.V q nu * s.w2' q nu) / s.sumV := by
    apply div_pos _ hV
    have hle : ∑ q ∈ irreducibles s.nq .a60, ∑ nu, s.V q nu * lo ^ 2 ≤
        ∑ q ∈ irreducibles s.nq .a60, ∑ nu, s.V q nu * s.w2' q nu := by
      refine Finset.sum_le_sum fun q hq => Finset.sum_le_sum fun nu _ => ?_
      rcases hterm q hq nu with h0 | h0
      · rw [h0, zero_mul, zero_mul]
      · exact mul_le_mul_of_nonneg_left h0.1 (V_nonneg s h q hq nu)
    simp only [← Finset.sum_mul] at hle
    exact lt_of_lt_of_le (mul_pos hV (by positivity)) hle
  refine ⟨?_, ?_, ?_⟩
  · unfold Input.wlog
    rw [← Real.log_le_iff_le_exp hlo, le_div_iff₀ hV]
    have : Real.log lo * s.sumV = ∑ q ∈ irreducibles s.nq .a60, ∑ nu, s.V q nu * (Real.log (lo ^ 2) / 2) := by
      simp only [← Finset.sum_mul]
      rw [Real.log_pow]
      unfold Input.sumV
      push_cast
      ring
    rw [this]
    refine Finset.sum_le_sum fun q hq => Finset.sum_le_sum fun nu _ => ?_
    rcases hterm q hq nu with h0 | h0
    · rw [h0]
      simp
    · rw [mul_div_assoc]
      apply mul_le_mul_of_nonneg_left _ (V_nonneg s h q hq nu)
      have := Real.log_le_log (by positivity) h0.1
      linarith
  · unfold Input.wlog Input.w2nd
    rw [Real.le_sqrt (Real.exp_pos _).le, ← Real.exp_nat_mul]
    swap
    · exact hm.le
    rw [← Real.le_log_iff_exp_le hm]
    generalize hM : (∑ q ∈ irreducibles s.nq .a60, ∑ nu, s.V q nu * s.w2' q nu) / s.sumV = m at hm ⊢
    have hM' : ∑ q ∈ irreducibles s.nq .a60, ∑ nu, s.V q nu * s.w2' q nu = m * s.sumV := by
      rw [← hM]
      field_simp
    rw [← mul_div_assoc, div_le_iff₀ hV]
    have hle : ∑ q ∈ irreducibles s.nq .a60, ∑ nu, s.V q nu * Real.log (s.w2' q nu) / 2 ≤
        ∑ q ∈ irreducibles s.nq .a60, ∑ nu, (s.V q nu * (Real.log m - 1) / 2 + s.V q nu * s.w2' q nu / m / 2) := by
      refine Finset.sum_le_sum fun q hq => Finset.sum_le_sum fun nu _ => ?_
      have hw := w2'_pos s h q nu
      have := Real.log_le_sub_one_of_pos (div_pos hw hm)
      rw [Real.log_div hw.ne' hm.ne'] at this
      have := mul_le_mul_of_nonneg_left this (V_nonneg s h q hq nu)
      have e : s.V q nu * (s.w2' q nu / m - 1) = s.V q nu * s.w2' q nu / m - s.V q nu := by ring
      rw [e] at this
      nlinarith
    simp only [Finset.sum_add_distrib, ← Finset.sum_div, ← Finset.sum_mul] at hle
    rw [hM'] at hle
    have : s.sumV = ∑ q ∈ irreducibles s.nq .a60, ∑ nu, s.V q nu := rfl
    rw [← this] at hle
    have e : m * s.sumV / m / 2 = s.sumV / 2 := by field_simp
    rw [e] at hle
    simp only [← Finset.sum_div]
    push_cast
    linarith
  · unfold Input.w2nd
    rw [Real.sqrt_le_left hhi.le, div_le_iff₀ hV]
    unfold Input.sumV
    rw [Finset.mul_sum]
    refine Finset.sum_le_sum fun q hq => ?_
    rw [Finset.mul_sum]
    refine Finset.sum_le_sum fun nu _ => ?_
    rcases hterm q hq nu with h0 | h0
    · rw [h0]
      simp
    · rw [mul_comm]
      exact mul_le_mul_of_nonneg_right h0.2 (V_nonneg s h q hq nu)

/-- C94: the coupling strength is proportional to the squared coupling; the averages of frequencies are not affected. -/
theorem C94_scale (s : Input nph) (c : ℝ) (hc : c ≠ 0) :
    ({ s with g2dd := fun q nu => c * s.g2dd q nu } : Input nph).lamda = c * s.lamda ∧
    ({ s with g2dd := fun q nu => c * s.g2dd q nu } : Input nph).wlog = s.wlog ∧
    ({ s with g2dd := fun q nu => c * s.g2dd q nu } : Input nph).w2nd = s.w2nd := by
  have hV : ∀ q nu, ({ s with g2dd := fun q nu => c * s.g2dd q nu } : Input nph).V q nu = c * s.V q nu := by
    intro q nu
    unfold Input.V Input.w2' Input.weight
    split
    · simp
    · simp only
      ring
  have hw : ∀ q nu, ({ s with g2dd := fun q nu => c * s.g2dd q nu } : Input nph).w2' q nu = s.w2' q nu := fun _ _ => rfl
  have hsum : ({ s with g2dd := fun q nu => c * s.g2dd q nu } : Input nph).sumV = c * s.sumV := by
    unfold Input.sumV
    simp only [hV, ← Finset.mul_sum]
  refine ⟨?_, ?_, ?_⟩
  · unfold Input.lamda
    rw [hsum]
    unfold Input.weight
    ring
  · unfold Input.wlog
    rw [hsum]
    simp only [hV, hw, mul_assoc, mul_div_assoc, ← Finset.mul_sum]
    rw [← mul_div_assoc, mul_div_mul_left _ _ hc]
  · unfold Input.w2nd
    rw [hsum]
    simp only [hV, hw, mul_assoc, ← Finset.mul_sum]
    rw [mul_div_mul_left _ _ hc]

/-- C94: the returned tuple; the shape correction is based on the second-moment average. -/
theorem C94_result (kB mustar : ℝ) (s : Input nph) :
    McMillan kB mustar false s = (s.lamda, s.wlog, TcPlain kB s.lamda s.wlog mustar, none) ∧
    McMillan kB mustar true s = (s.lamda, s.wlog,
      TcPlain kB s.lamda s.wlog mustar * strong s.lamda mustar * shape s.lamda s.wlog mustar s.w2nd, some s.w2nd) := by
  constructor <;> simp [McMillan, Tc]

/-! ## C95: critical temperature -/

theorem TcPlain_pos (kB lamda wlog mustar : ℝ) (hk : 0 < kB) (hw : 0 < wlog) : 0 < TcPlain kB lamda wlog mustar := by
  unfold TcPlain
  positivity

/-- C95: where the denominator is not cut off, the critical temperature increases with the coupling strength. -/
theorem C95_increasing (kB wlog mustar l1 l2 : ℝ) (hk : 0 < kB) (hw : 0 < wlog) (hmu : 0 ≤ mustar) (hl : l1 < l2)
    (h0 : 0 ≤ l1) (h1 : 1e-3 ≤ l1 - mustar * (1 + 0.62 * l1)) :
    TcPlain kB l1 wlog mustar < TcPlain kB l2 wlog mustar := by
  have hmu1 : 0 < 1 - 0.62 * mustar := by
    by_contra hc
    push Not at hc
    norm_num at h1 hc
    nlinarith
  have h2 : 1e-3 ≤ l2 - mustar * (1 + 0.62 * l2) := by
    norm_num at h1 hmu1 ⊢
    nlinarith
  unfold TcPlain
  rw [max_eq_right h1, max_eq_right h2]
  apply mul_lt_mul_of_pos_left _ (by positivity)
  apply Real.exp_lt_exp.2
  have p1 : 0 < l1 - mustar * (1 + 0.62 * l1) := lt_of_lt_of_le (by norm_num) h1
  have p2 : 0 < l2 - mustar * (1 + 0.62 * l2) := lt_of_lt_of_le (by norm_num) h2
  rw [div_lt_div_iff₀ p1 p2]
  norm_num at p1 p2 hmu1 ⊢
  nlinarith

/-- C95: where the denominator is cut off, the critical temperature is negligible (the exponential is zero in double precision). -/
theorem C95_cutoff (kB wlog mustar lamda : ℝ) (hk : 0 < kB) (hw : 0 < wlog) (h0 : 0 ≤ lamda)
    (h1 : lamda - mustar * (1 + 0.62 * lamda) ≤ 1e-3) :
    TcPlain kB lamda wlog mustar ≤ wlog / (1.20 * kB) * Real.exp (-1040) := by
  unfold TcPlain
  rw [max_eq_left h1]
  apply mul_le_mul_of_nonneg_left _ (by positivity)
  apply Real.exp_le_exp.2
  rw [div_le_iff₀ (by norm_num)]
  norm_num
  linarith

/-- C95: the critical temperature does not increase with the Coulomb pseudopotential. -/
theorem C95_mustar (kB wlog lamda m1 m2 : ℝ) (hk : 0 < kB) (hw : 0 < wlog) (hl : 0 ≤ lamda) (hm : m1 ≤ m2) :
    TcPlain kB lamda wlog m2 ≤ TcPlain kB lamda wlog m1 := by
  unfold TcPlain
  apply mul_le_mul_of_nonneg_left _ (by positivity)
  apply Real.exp_le_exp.2
  have hmax : max 1e-3 (lamda - m2 * (1 + 0.62 * lamda)) ≤ max 1e-3 (lamda - m1 * (1 + 0.62 * lamda)) := by
    apply max_le_max (le_refl _)
    have : 0 ≤ 1 + 0.62 * lamda := by positivity
    nlinarith
  have hp : 0 < max 1e-3 (lamda - m2 * (1 + 0.62 * lamda)) := lt_of_lt_of_le (by norm_num) (le_max_left _ _)
  have hp1 : 0 < max 1e-3 (lamda - m1 * (1 + 0.62 * lamda)) := lt_of_lt_of_le (by norm_num) (le_max_left _ _)
  rw [neg_mul, neg_div, neg_div, neg_le_neg_iff]
  exact div_le_div_of_nonneg_left (by positivity) hp hmax

theorem cbrt_one_le {x : ℝ} (hx : 0 ≤ x) : 1 ≤ cbrt (1 + x) := by
  unfold cbrt
  rw [if_pos (by linarith)]
  exact Real.one_le_rpow (by linarith) (by norm_num)

/-- C95: the strong-coupling correction enhances the critical temperature; the shape correction does if the second-moment average is
not smaller than the logarithmic average (see `C94_bounds`). -/
theorem C95_corrections (kB lamda wlog mustar w2nd : ℝ) (hk : 0 < kB) (hw : 0 < wlog) (hl : 0 ≤ lamda) (hmu : 0 ≤ mustar)
    (hm : wlog ≤ w2nd) :
    Tc kB lamda wlog mustar none false ≤ Tc kB lamda wlog mustar none true ∧
    Tc kB lamda wlog mustar none true ≤ Tc kB lamda wlog mustar (some w2nd) true := by
  have hp := TcPlain_pos kB lamda wlog mustar hk hw
  have hs : 1 ≤ strong lamda mustar := by
    unfold strong
    exact cbrt_one_le (Real.rpow_nonneg (by positivity) _)
  have hsh : 1 ≤ shape lamda wlog mustar w2nd := by
    unfold shape
    have : 0 ≤ w2nd / wlog - 1 := by
      rw [sub_nonneg, le_div_iff₀ hw, one_mul]
      exact hm
    have : 0 ≤ (w2nd / wlog - 1) * lamda ^ 2 / (lamda ^ 2 + (1.82 * (1 + 6.3 * mustar) * w2nd / wlog) ^ 2) := by positivity
    linarith
  simp only [Tc, if_true, Bool.false_eq_true, if_false]
  constructor
  · exact le_mul_of_one_le_right hp.le hs
  · exact le_mul_of_one_le_right (by positivity) hsh

/-- C95: the critical temperature is proportional to the phonon energies. -/
theorem C95_scale (kB lamda wlog mustar w2nd c : ℝ) (hc : c ≠ 0) (correct : Bool) :
    Tc kB lamda (c * wlog) mustar (some (c * w2nd)) correct = c * Tc kB lamda wlog mustar (some w2nd) correct := by
  have h1 : TcPlain kB lamda (c * wlog) mustar = c * TcPlain kB lamda wlog mustar := by
    unfold TcPlain
    ring
  have h2 : shape lamda (c * wlog) mustar (c * w2nd) = shape lamda wlog mustar w2nd := by
    unfold shape
    have e1 : c * w2nd / (c * wlog) = w2nd / wlog := mul_div_mul_left _ _ hc
    have e2 : 1.82 * (1 + 6.3 * mustar) * (c * w2nd) / (c * wlog) = 1.82 * (1 + 6.3 * mustar) * w2nd / wlog := by
      rw [mul_div_assoc, e1, mul_div_assoc]
    simp only [e1, e2]
  cases correct <;> simp only [Tc, if_true, Bool.false_eq_true, if_false, h1, h2]
  ring

/-! ## Examples -/

/-- Typical parameters. -/
example : (0 : ℝ) ≤ 0.8 ∧ (1e-3 : ℝ) ≤ 0.8 - 0.1 * (1 + 0.62 * 0.8) := by norm_num

/-- Inputs that are not trivial. -/
noncomputable def exampleInput : Input 2 :=
  ⟨2, 1, 1, fun q nu => if q = (0, 0) then (if nu = 0 then -1 else 9) else 4, fun _ _ => 1, fun _ => 1⟩

theorem exampleInput_physical : Physical exampleInput :=
  ⟨one_pos, fun _ _ _ => zero_le_one, fun _ _ => zero_le_one, zero_le_one⟩

theorem exampleInput_symmetric : Symmetric exampleInput := by
  intro k q hk hq h
  refine ⟨?_, rfl, rfl⟩
  have : (k = (0, 0) ↔ q = (0, 0)) := by
    have h1 := (C19_images k 2 (by norm_num) .a60 q).2 ⟨hq.1, hq.2, h⟩
    have h2 := images_eq_of_mem k q 2 .a60 h1
    have h0 : ∀ p : P, p ∈ images (0, 0) 2 .a60 → p = (0, 0) := by decide
    have hself : ∀ p : P, OnMesh 2 p → p ∈ images p 2 .a60 := by
      intro p hp
      have := red_mem_images p 2 .a60
      have e : red 2 p = p := red_of_mem (nk := 2) ((mem_meshPoints 2 p).2 ⟨hp.1, hp.2⟩)
      rwa [e] at this
    constructor
    · rintro rfl
      exact h0 q h1
    · rintro rfl
      have := hself k hk
      rw [← h2] at this
      exact h0 k this
  funext nu
  unfold exampleInput
  simp only [this]

example := C94_full exampleInput exampleInput_symmetric

example := C94_nonneg exampleInput exampleInput_physical

example := C94_scale exampleInput 3 (by norm_num)

theorem exampleInput_sumV : 0 < exampleInput.sumV := by
  have h1 : irreducibles exampleInput.nq .a60 = {(0, 0), (0, 1)} := by
    change irreducibles 2 .a60 = _
    decide
  have h2 : (images (0, 0) 2 .a60).card = 1 := by decide
  have h3 : (images (0, 1) 2 .a60).card = 3 := by decide
  unfold Input.sumV
  rw [h1]
  simp only [exampleInput, Input.V, Input.w2', Input.weight]
  rw [Finset.sum_pair (by decide)]
  simp only [Fin.sum_univ_two]
  norm_num
  rw [h2, h3]
  norm_num

/-- The unstable mode is not included. -/
example : 2 ≤ exampleInput.wlog ∧ exampleInput.wlog ≤ exampleInput.w2nd ∧ exampleInput.w2nd ≤ 3 := by
  refine C94_bounds exampleInput exampleInput_physical exampleInput_sumV 2 3 (by norm_num) (by norm_num) fun q _ nu h => ?_
  unfold exampleInput at *
  dsimp only at *
  split at h
  · split at h
    · norm_num at h
    · rw [if_pos ‹_›, if_neg ‹_›]
      norm_num
  · rw [if_neg ‹_›]
    norm_num

example := C94_result 8.6e-5 0.1 exampleInput

end Verif.Eliashberg
