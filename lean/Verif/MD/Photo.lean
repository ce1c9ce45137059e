import Mathlib.Analysis.Complex.ExponentialBounds
import Verif.Occ.Fermi

/-!
# Photoexcitation: `find_Fermi_level` of `elphmod/md.py` 194-221 with two chemical potentials
-/

namespace Verif.MD

open Verif.Occ

/-- Bands below a given one, `self.e[..., :int(self.n) // 2]`. -/
def lower {nk nv nc : Nat} (e : Fin nk → Fin (nv + nc) → ℝ) (i : Fin (nk * nv)) : ℝ := e i.divNat (Fin.castAdd nc i.modNat)

/-- The other bands, `self.e[..., int(self.n) // 2:]`. -/
def upper {nk nv nc : Nat} (e : Fin nk → Fin (nv + nc) → ℝ) (i : Fin (nk * nc)) : ℝ := e i.divNat (Fin.natAdd nv i.modNat)

/-- `elphmod/md.py` 202-217: half the distance (in units of `kT`) and mean value of the two chemical potentials. There are
`2 nv` electrons; an odd number is an error. `ev` and `ec`: minimal and maximal energies of the two groups of bands. -/
noncomputable def findTwo {nk nv nc : Nat} (e : Fin nk → Fin (nv + nc) → ℝ) (ev ec : ℝ × ℝ) (kT eps nx tol : ℝ) (mu : Option ℝ)
    (fuel : Nat) : Option (ℝ × ℝ) := do
  let muv ← findFermiLevel nk nv fermiDirac (fermiDiracDelta 0) (lower e) ev.1 ev.2 kT eps (2 * nv - nx) tol mu fuel
  let muc ← findFermiLevel nk nc fermiDirac (fermiDiracDelta 0) (upper e) ec.1 ec.2 kT eps nx tol mu fuel
  some ((muc - muv) / (2 * kT), (muc + muv) / 2)

/-- Specification: number of electrons in a group of bands, with both spins, per k point. -/
noncomputable def charge {nk n : Nat} (f : ℝ → ℝ) (e : Fin nk → Fin n → ℝ) (S : Fin n → Prop) [DecidablePred S] (kT mu : ℝ) : ℝ :=
  2 / nk * ∑ k, ∑ i with S i, f ((e k i - mu) / kT)

theorem sum_divMod {nk n : Nat} (f : Fin nk → Fin n → ℝ) : ∑ i : Fin (nk * n), f i.divNat i.modNat = ∑ k, ∑ j, f k j := by
  rw [← Fintype.sum_prod_type']
  exact Fintype.sum_equiv finProdFinEquiv.symm _ _ fun i => rfl

theorem charge_lower {nk nv nc : Nat} (f : ℝ → ℝ) (e : Fin nk → Fin (nv + nc) → ℝ) (kT mu : ℝ) :
    density nk nv f (lower e) kT mu = charge f e (fun i => i.1 < nv) kT mu := by
  unfold density charge lower
  rw [sum_divMod fun k j => f ((e k (Fin.castAdd nc j) - mu) / kT)]
  rw [mul_div_right_comm]
  refine congrArg (2 / (nk : ℝ) * ·) (Finset.sum_congr rfl fun k _ => ?_)
  rw [Finset.sum_filter, Fin.sum_univ_add (a := nv) (b := nc)]
  simp

theorem charge_upper {nk nv nc : Nat} (f : ℝ → ℝ) (e : Fin nk → Fin (nv + nc) → ℝ) (kT mu : ℝ) :
    density nk nc f (upper e) kT mu = charge f e (fun i => nv ≤ i.1) kT mu := by
  unfold density charge upper
  rw [sum_divMod fun k j => f ((e k (Fin.natAdd nv j) - mu) / kT)]
  rw [mul_div_right_comm]
  refine congrArg (2 / (nk : ℝ) * ·) (Finset.sum_congr rfl fun k _ => ?_)
  rw [Finset.sum_filter, Fin.sum_univ_add (a := nv) (b := nc)]
  simp
  exact Finset.sum_eq_zero fun x _ => if_neg (by have := x.2; omega)

theorem charge_total {nk nv nc : Nat} (f : ℝ → ℝ) (e : Fin nk → Fin (nv + nc) → ℝ) (kT mu : ℝ) :
    charge f e (fun _ => True) kT mu = charge f e (fun i => i.1 < nv) kT mu + charge f e (fun i => nv ≤ i.1) kT mu := by
  unfold charge
  rw [← mul_add, ← Finset.sum_add_distrib]
  congr 1
  refine Finset.sum_congr rfl fun k _ => ?_
  have := Finset.sum_filter_add_sum_filter_not Finset.univ (fun i : Fin (nv + nc) => i.1 < nv) fun i => f ((e k i - mu) / kT)
  simp only [not_lt] at this
  rw [this, Finset.filter_true]

/-- The two chemical potentials. -/
theorem findTwo_spec {nk nv nc : Nat} (hk : 0 < nk) (hv : 0 < nv) (hc : 0 < nc) (e : Fin nk → Fin (nv + nc) → ℝ) (ev ec : ℝ × ℝ)
    (kT eps nx tol : ℝ) (mu0 : Option ℝ) (fuel : Nat) (d mu : ℝ) (hkT : kT ≠ 0)
    (h : findTwo e ev ec kT eps nx tol mu0 fuel = some (d, mu)) :
    |charge fermiDirac e (fun i => i.1 < nv) kT (mu - d * kT) - (2 * nv - nx)| < tol ∧
      |charge fermiDirac e (fun i => nv ≤ i.1) kT (mu + d * kT) - nx| < tol := by
  unfold findTwo at h
  simp only [Option.bind_eq_bind, Option.bind_eq_some_iff, Option.some.injEq, Prod.mk.injEq] at h
  obtain ⟨muv, h1, muc, h2, rfl, rfl⟩ := h
  have e1 : (muc + muv) / 2 - (muc - muv) / (2 * kT) * kT = muv := by
    field_simp
    ring
  have e2 : (muc + muv) / 2 + (muc - muv) / (2 * kT) * kT = muc := by
    field_simp
    ring
  rw [e1, e2, ← charge_lower, ← charge_upper]
  exact ⟨C38_returns nk nv hk hv _ _ _ _ _ _ eps 0 _ _ _ _ _ (Or.inl h1), C38_returns nk nc hk hc _ _ _ _ _ _ eps 0 _ _ _ _ _ (Or.inl h2)⟩

/-- C115: with `two_fermi_dirac`, the valence bands lack `nx` electrons and the conduction bands hold them, within the
tolerance, if the mean chemical potential separates the bands. Missing: other cases, see `C115_violated`. -/
theorem C115_partial {nk nv nc : Nat} (hk : 0 < nk) (hv : 0 < nv) (hc : 0 < nc) (e : Fin nk → Fin (nv + nc) → ℝ) (ev ec : ℝ × ℝ)
    (kT eps nx tol : ℝ) (mu0 : Option ℝ) (fuel : Nat) (d mu : ℝ) (hkT : 0 < kT)
    (h : findTwo e ev ec kT eps nx tol mu0 fuel = some (d, mu))
    (h1 : ∀ k, ∀ i : Fin (nv + nc), i.1 < nv → e k i < mu) (h2 : ∀ k, ∀ i : Fin (nv + nc), nv ≤ i.1 → mu ≤ e k i) :
    |charge (twoFermiDirac d) e (fun i => i.1 < nv) kT mu - (2 * nv - nx)| < tol ∧
      |charge (twoFermiDirac d) e (fun i => nv ≤ i.1) kT mu - nx| < tol ∧
      |charge (twoFermiDirac d) e (fun _ => True) kT mu - 2 * nv| < 2 * tol := by
  obtain ⟨a1, a2⟩ := findTwo_spec hk hv hc e ev ec kT eps nx tol mu0 fuel d mu hkT.ne' h
  have b1 : charge (twoFermiDirac d) e (fun i => i.1 < nv) kT mu = charge fermiDirac e (fun i => i.1 < nv) kT (mu - d * kT) := by
    unfold charge
    congr 1
    refine Finset.sum_congr rfl fun k _ => Finset.sum_congr rfl fun i hi => ?_
    have hi' := h1 k i (by simpa using hi)
    have : (e k i - mu) / kT < 0 := div_neg_of_neg_of_pos (by linarith) hkT
    unfold twoFermiDirac twoDx twoDy
    rw [if_pos this]
    congr 1
    field_simp
    ring
  have b2 : charge (twoFermiDirac d) e (fun i => nv ≤ i.1) kT mu = charge fermiDirac e (fun i => nv ≤ i.1) kT (mu + d * kT) := by
    unfold charge
    congr 1
    refine Finset.sum_congr rfl fun k _ => Finset.sum_congr rfl fun i hi => ?_
    have hi' := h2 k i (by simpa using hi)
    have : ¬ (e k i - mu) / kT < 0 := not_lt.2 (div_nonneg (by linarith) hkT.le)
    unfold twoFermiDirac twoDx twoDy
    rw [if_neg this]
    congr 1
    field_simp
    ring
  rw [b1, b2, charge_total, b1, b2]
  refine ⟨a1, a2, ?_⟩
  calc |charge fermiDirac e (fun i => i.1 < nv) kT (mu - d * kT) + charge fermiDirac e (fun i => nv ≤ i.1) kT (mu + d * kT) - 2 * nv| =
      |(charge fermiDirac e (fun i => i.1 < nv) kT (mu - d * kT) - (2 * nv - nx)) +
        (charge fermiDirac e (fun i => nv ≤ i.1) kT (mu + d * kT) - nx)| := by
        congr 1
        ring
    _ ≤ _ := abs_add_le _ _
    _ < 2 * tol := by linarith

theorem fermiLoop_mono {N : Nat} (f : ℝ → ℝ) (delta0 : ℝ) (e : Fin N → ℝ) (kT eps n tol : ℝ) (fuel k : Nat) (mu0 mu : ℝ)
    (h : fermiLoop f delta0 e kT eps n tol fuel mu0 = some mu) : fermiLoop f delta0 e kT eps n tol (fuel + k) mu0 = some mu := by
  induction fuel generalizing mu0 with
  | zero => simp [fermiLoop] at h
  | succ fuel ih =>
    rw [Nat.add_right_comm]
    rw [fermiLoop] at h ⊢
    split
    · rename_i h1
      rwa [if_pos h1] at h
    · rename_i h1
      rw [if_neg h1] at h
      exact ih _ h

/-- C115: the two chemical potentials are found for any bands if the number of excited electrons is possible. -/
theorem C115_terminates {nk nv nc : Nat} (hk : 0 < nk) (hv : 0 < nv) (hc : 0 < nc) (e : Fin nk → Fin (nv + nc) → ℝ) (ev ec : ℝ × ℝ)
    (kT eps nx tol : ℝ) (mu0 : Option ℝ) (hkT : 0 < kT) (heps : 0 ≤ eps) (htol : 0 < tol) (h0 : 0 < nx) (h1 : nx < 2 * nv)
    (h2 : nx < 2 * nc) (hsv : nv * (eps / (2 * kT) + Real.exp (-709)) ≤ tol / 8)
    (hsc : nc * (eps / (2 * kT) + Real.exp (-709)) ≤ tol / 8) :
    ∃ fuel d mu, findTwo e ev ec kT eps nx tol mu0 fuel = some (d, mu) := by
  obtain ⟨f1, muv, a1, -⟩ := C38_terminates_fermi_dirac nk nv hk hv (lower e) ev.1 ev.2 kT eps (2 * nv - nx) tol mu0 hkT heps htol
    (by linarith) (by linarith) hsv
  obtain ⟨f2, muc, a2, -⟩ := C38_terminates_fermi_dirac nk nc hk hc (upper e) ec.1 ec.2 kT eps nx tol mu0 hkT heps htol h0 h2 hsc
  refine ⟨f1 + f2, (muc - muv) / (2 * kT), (muc + muv) / 2, ?_⟩
  have b1 := fermiLoop_mono _ _ _ _ _ _ _ f1 f2 _ _ a1
  have b2 := fermiLoop_mono _ _ _ _ _ _ _ f2 f1 _ _ a2
  rw [Nat.add_comm f2 f1] at b2
  unfold findTwo findFermiLevel
  simp only [Option.bind_eq_bind]
  rw [b1]
  simp only [Option.bind_some]
  rw [b2]
  rfl

theorem exp_709_big : (4 : ℝ) < Real.exp 709 := by
  have := Real.add_one_le_exp (709 : ℝ)
  linarith

/-- Argument of the Fermi function from its value. -/
theorem fermiDirac_arg (x a b : ℝ) (ha : 0 < a) (hab : 1 / 5 < a) (h1 : a < fermiDirac x) (h2 : fermiDirac x < b) :
    1 / b - 1 < Real.exp x ∧ Real.exp x < 1 / a - 1 ∧ x < 709 := by
  have hb : 0 < b := by linarith
  have hp : 0 < Real.exp (min x xmax) + 1 := by positivity
  unfold fermiDirac at h1 h2
  have h3 : Real.exp (min x xmax) + 1 < 1 / a := by
    rw [lt_div_iff₀ ha]
    rwa [lt_div_iff₀ hp, mul_comm] at h1
  have h4 : 1 / b < Real.exp (min x xmax) + 1 := by
    rw [div_lt_iff₀ hb]
    rwa [div_lt_iff₀ hp, mul_comm] at h2
  have h5 : 1 / a < 5 := by
    rw [div_lt_iff₀ ha]
    linarith
  have hx : x < xmax := by
    by_contra hx
    rw [min_eq_right (not_lt.1 hx)] at h3
    have := exp_709_big
    unfold xmax at h3
    linarith
  rw [min_eq_left hx.le] at h3 h4
  exact ⟨by linarith, by linarith, hx⟩

/-- C115 is violated in general: for one occupied and two empty bands at a high temperature, the mean chemical potential is
below all bands, so the occupation of the valence band is calculated with the wrong chemical potential and electrons are
missing. -/
theorem C115_violated (ev ec : ℝ × ℝ) (mu0 : Option ℝ) : ∃ fuel d mu,
    findTwo (nk := 1) (nv := 1) (nc := 2) (fun _ => ![0, 1, 1]) ev ec 1 1e-10 1 1e-5 mu0 fuel = some (d, mu) ∧
      charge (twoFermiDirac d) (fun _ : Fin 1 => (![0, 1, 1] : Fin (1 + 2) → ℝ)) (fun _ => True) 1 mu < 1.96 := by
  have hE := exp_709
  obtain ⟨fuel, d, mu, h⟩ := C115_terminates (nk := 1) (nv := 1) (nc := 2) one_pos one_pos two_pos (fun _ => ![0, 1, 1]) ev ec 1
    1e-10 1 1e-5 mu0 one_pos (by norm_num) (by norm_num) one_pos (by norm_num) (by norm_num) (by norm_num at hE ⊢; linarith)
    (by norm_num at hE ⊢; linarith)
  refine ⟨fuel, d, mu, h, ?_⟩
  obtain ⟨a1, a2⟩ := findTwo_spec one_pos one_pos two_pos _ ev ec 1 1e-10 1 1e-5 mu0 fuel d mu one_ne_zero h
  have c1 : charge fermiDirac (fun _ : Fin 1 => (![0, 1, 1] : Fin (1 + 2) → ℝ)) (fun i => i.1 < 1) 1 (mu - d * 1) =
      2 * fermiDirac (-(mu - d)) := by
    unfold charge
    simp [Finset.sum_filter, Fin.sum_univ_three]
  have c2 : charge fermiDirac (fun _ : Fin 1 => (![0, 1, 1] : Fin (1 + 2) → ℝ)) (fun i => 1 ≤ i.1) 1 (mu + d * 1) =
      4 * fermiDirac (1 - (mu + d)) := by
    unfold charge
    simp [Finset.sum_filter, Fin.sum_univ_three]
    ring
  replace a1 : |2 * fermiDirac (-(mu - d)) - (2 * (1 : Nat) - 1)| < 1e-5 := by
    rw [← c1]
    exact a1
  replace a2 : |4 * fermiDirac (1 - (mu + d)) - 1| < 1e-5 := by
    rw [← c2]
    exact a2
  rw [abs_lt] at a1 a2
  norm_num at a1 a2
  obtain ⟨v1, v2, v3⟩ := fermiDirac_arg (-(mu - d)) 0.49999 0.50001 (by norm_num) (by norm_num) (by norm_num; linarith)
    (by norm_num; linarith)
  obtain ⟨w1, w2, w3⟩ := fermiDirac_arg (1 - (mu + d)) 0.24999 0.25001 (by norm_num) (by norm_num) (by norm_num; linarith)
    (by norm_num; linarith)
  norm_num at v1 v2 w1 w2
  have he := Real.exp_one_lt_d9
  -- lower chemical potential
  have s1 : mu - d < 0.05 := by
    by_contra hc
    have h3 : Real.exp (-(mu - d)) ≤ Real.exp (-0.05) := Real.exp_le_exp.2 (by linarith)
    have h4 : Real.exp (-0.05) ≤ 1 / 1.05 := by
      rw [Real.exp_neg, ← one_div]
      have := Real.add_one_le_exp (0.05 : ℝ)
      exact one_div_le_one_div_of_le (by norm_num) (by linarith)
    have h5 := h3.trans h4
    norm_num at h5
    linarith
  have s2 : mu + d < -0.05 := by
    by_contra hc
    have h3 : Real.exp (1 - (mu + d)) ≤ Real.exp (1 + 0.05) := Real.exp_le_exp.2 (by linarith)
    have h4 : Real.exp (0.05 : ℝ) ≤ 1 / 0.95 := by
      have h5 := Real.add_one_le_exp (-0.05 : ℝ)
      rw [Real.exp_neg] at h5
      have h6 := Real.exp_pos (0.05 : ℝ)
      rw [le_div_iff₀ (by norm_num)]
      have : (0.95 : ℝ) ≤ (Real.exp 0.05)⁻¹ := by linarith
      calc Real.exp 0.05 * 0.95 ≤ Real.exp 0.05 * (Real.exp 0.05)⁻¹ := by gcongr
        _ = 1 := mul_inv_cancel₀ h6.ne'
    rw [Real.exp_add] at h3
    have h5 : Real.exp 1 * Real.exp (0.05 : ℝ) ≤ 2.7182818286 * (1 / 0.95) := by
      have := Real.exp_pos (0.05 : ℝ)
      gcongr
    norm_num at h3 h5
    linarith
  have hmu : mu < 0 := by linarith
  have t1 : twoFermiDirac d (-mu) = fermiDirac (-(mu + d)) := by
    unfold twoFermiDirac twoDx twoDy
    rw [if_neg (by linarith)]
    congr 1
    ring
  have t2 : twoFermiDirac d (1 - mu) = fermiDirac (1 - (mu + d)) := by
    unfold twoFermiDirac twoDx twoDy
    rw [if_neg (by linarith)]
    congr 1
    ring
  have t3 : charge (twoFermiDirac d) (fun _ : Fin 1 => (![0, 1, 1] : Fin (1 + 2) → ℝ)) (fun _ => True) 1 mu =
      2 * (fermiDirac (-(mu + d)) + 2 * fermiDirac (1 - (mu + d))) := by
    unfold charge
    simp [Fin.sum_univ_three, t1, t2]
    ring
  have t4 : fermiDirac (-(mu + d)) < 1 / 2.1 := by
    unfold fermiDirac
    rw [min_eq_left (by unfold xmax; linarith)]
    have h3 : Real.exp (1 - (mu + d)) = Real.exp 1 * Real.exp (-(mu + d)) := by
      rw [← Real.exp_add]
      congr 1
    have h4 : 1.1 < Real.exp (-(mu + d)) := by
      by_contra hc
      have h5 : Real.exp 1 * Real.exp (-(mu + d)) ≤ 2.7182818286 * 1.1 := by
        have := Real.exp_pos (-(mu + d))
        gcongr
        exact not_lt.1 hc
      rw [← h3] at h5
      norm_num at h5
      linarith
    exact one_div_lt_one_div_of_lt (by norm_num) (by linarith)
  rw [t3]
  norm_num at t4 ⊢
  linarith

/-- Example: the hypotheses of `C115_partial` are met by two bands at 0 and 1 if the two chemical potentials are found to be
the energies of the bands. -/
example : findTwo (nk := 1) (nv := 1) (nc := 1) (fun _ => ![0, 1]) (0, 0) (1, 1) 1 0 1 1 none 1 = some (1 / 2, 1 / 2) := by
  have h0 : fermiDirac 0 = 1 / 2 := by
    unfold fermiDirac
    rw [min_eq_left (by unfold xmax; norm_num), Real.exp_zero]
    norm_num
  have f1 : findFermiLevel 1 1 fermiDirac (fermiDiracDelta 0) (lower (nv := 1) (nc := 1) fun _ : Fin 1 => ![0, 1]) 0 0 1 0
      (2 * ((1 : Nat) : ℝ) - 1) 1 none 1 = some 0 := by
    unfold findFermiLevel
    rw [fermiLoop]
    have : guess (1 * 1) 0 0 ((2 * ((1 : Nat) : ℝ) - 1) * (0.5 * ((1 * 1 : Nat) : ℝ) / ((1 : Nat) : ℝ))) = 0 := by
      unfold guess
      norm_num
    simp only [Option.getD_none, this]
    rw [if_pos]
    unfold electrons lower
    rw [Fin.sum_univ_one, show Fin.castAdd 1 (Fin.modNat (0 : Fin (1 * 1))) = 0 from rfl]
    simp [h0]
    norm_num
  have f2 : findFermiLevel 1 1 fermiDirac (fermiDiracDelta 0) (upper (nv := 1) (nc := 1) fun _ : Fin 1 => ![0, 1]) 1 1 1 0
      1 1 none 1 = some 1 := by
    unfold findFermiLevel
    rw [fermiLoop]
    have : guess (1 * 1) 1 1 (1 * (0.5 * ((1 * 1 : Nat) : ℝ) / ((1 : Nat) : ℝ))) = 1 := by
      unfold guess
      norm_num
    simp only [Option.getD_none, this]
    rw [if_pos]
    unfold electrons upper
    rw [Fin.sum_univ_one, show Fin.natAdd 1 (Fin.modNat (0 : Fin (1 * 1))) = 1 from rfl]
    simp [h0]
    norm_num
  unfold findTwo
  simp only [f1, f2, Option.bind_eq_bind, Option.bind_some]
  norm_num

end Verif.MD
