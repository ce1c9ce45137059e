import Verif.Bands.Weyl
import Verif.TB.Standardize
import Verif.Text.HrDat
import Verif.Phon.Model
import Verif.Occ.Fermi
import Verif.Occ.Step
import Mathlib.Analysis.Matrix.Spectrum
import Mathlib.Data.Fin.Tuple.Sort

/-!
# Property C174: band energies and frequencies are insensitive to rounding and neglected matrix elements
-/

namespace Verif.Bands

open Verif.TB
open Verif.Lattice (V3)
open Verif.Fourier (phase bloch)

variable {d : Nat}

/-! ### Bloch matrices -/

/-- Bloch sums of lists with similar matrices. -/
theorem bloch_close {α : Type} {ε : ℝ} (l l' : Blocks α ℂ) (k : Fin 3 → ℝ) (a b : α)
    (h : List.Forall₂ (fun e e' => e.1 = e'.1 ∧ ‖e.2 a b - e'.2 a b‖ ≤ ε) l l') : ‖bloch l k a b - bloch l' k a b‖ ≤ l.length * ε := by
  induction h with
  | nil => simp [bloch]
  | @cons e e' l l' he _ ih =>
    have e1 : bloch (e :: l) k a b - bloch (e' :: l') k a b = (e.2 a b - e'.2 a b) * phase e.1 k + (bloch l k a b - bloch l' k a b) := by
      simp only [bloch, List.map_cons, List.sum_cons, he.1]
      ring
    rw [e1]
    refine (norm_add_le _ _).trans ?_
    rw [norm_mul, Verif.TB.norm_phase, mul_one, List.length_cons]
    push_cast
    linarith [he.2]

theorem threshold_close {α K : Type} [Fintype α] [NormedAddCommGroup K] {T : ℝ} (eps : ℝ) (heps : 0 ≤ eps) (l : Blocks α K) (hT0 : 0 ≤ T)
    (hT : ∀ e ∈ l, ∀ a b, ‖e.2 a b‖ ≤ T) : List.Forall₂ (fun e e' => e.1 = e'.1 ∧ ∀ a b, ‖e.2 a b - e'.2 a b‖ ≤ eps * T) l (threshold eps l) := by
  have hm : (maxAbs l : ℝ) ≤ T := by
    have key : ∀ l : Blocks α K, (∀ e ∈ l, ∀ a b, ‖e.2 a b‖ ≤ T) →
        (l.map fun e => Finset.univ.sup fun a => Finset.univ.sup fun b => ‖e.2 a b‖₊).foldr max 0 ≤ (⟨T, hT0⟩ : NNReal) := by
      intro l
      induction l with
      | nil => intro _; exact bot_le
      | cons e l ih =>
        intro h
        rw [List.map_cons, List.foldr_cons]
        refine max_le (Finset.sup_le fun a _ => Finset.sup_le fun b _ => ?_) (ih fun e' he' => h e' (List.mem_cons_of_mem _ he'))
        exact h e (List.mem_cons_self ..) a b
    exact key l hT
  unfold threshold
  by_cases h0 : eps ≠ 0
  · rw [if_pos h0, List.forall₂_map_right_iff, List.forall₂_same]
    intro e _
    refine ⟨rfl, fun a b => ?_⟩
    dsimp only
    split
    · rename_i hlt
      rw [sub_zero]
      exact hlt.le.trans (mul_le_mul_of_nonneg_left hm heps)
    · rw [sub_self, norm_zero]
      positivity
  · rw [if_neg h0, List.forall₂_same]
    intro e _
    refine ⟨rfl, fun a b => ?_⟩
    rw [sub_self, norm_zero]
    positivity

theorem standardize_close (sym : Bool) {T : ℝ} (eps : ℝ) (heps : 0 ≤ eps) (l : Blocks (Fin d) ℂ) (hT0 : 0 ≤ T)
    (hT : ∀ e ∈ l, ∀ a b, ‖e.2 a b‖ ≤ T) (k : Fin 3 → ℝ) (hk : sym = true → ∀ a b, star (bloch l k b a) = bloch l k a b) (a b : Fin d) :
    ‖bloch (elStandardize eps sym l) k a b - bloch l k a b‖ ≤ l.length * (eps * T) := by
  have key : ∀ a b, ‖bloch (threshold eps l) k a b - bloch l k a b‖ ≤ l.length * (eps * T) := by
    intro a b
    rw [norm_sub_rev]
    exact bloch_close l _ k a b ((threshold_close eps heps l hT0 hT).imp fun e e' h => ⟨h.1, h.2 a b⟩)
  rw [elStandardize_threshold]
  cases sym with
  | false =>
    rw [C41_bloch]
    exact key a b
  | true =>
    rw [C40_symmetrize]
    have e : (bloch (threshold eps l) k a b + star (bloch (threshold eps l) k b a)) / 2 - bloch l k a b =
        ((bloch (threshold eps l) k a b - bloch l k a b) + star (bloch (threshold eps l) k b a - bloch l k b a)) / 2 := by
      rw [star_sub, hk rfl a b]
      ring
    rw [e, norm_div, Complex.norm_ofNat, div_le_iff₀ (by norm_num)]
    refine (norm_add_le _ _).trans ?_
    rw [norm_star]
    linarith [key a b, key b a]

/-- **C174**: neglecting hoppings smaller than `eps` times the largest one changes band energies by no more than `eps` times the largest
hopping, the number of orbitals, and the number of lattice vectors. -/
theorem C174_standardize (eigvalsh : Matrix (Fin d) (Fin d) ℂ → Fin d → ℝ) (hE : ∀ A, Spectrum A (eigvalsh A)) (sym : Bool) {T : ℝ} (eps : ℝ)
    (heps : 0 ≤ eps) (l : Blocks (Fin d) ℂ) (hT0 : 0 ≤ T) (hT : ∀ e ∈ l, ∀ a b, ‖e.2 a b‖ ≤ T) (k : Fin 3 → ℝ)
    (hk : sym = true → ∀ a b, star (bloch l k b a) = bloch l k a b) (n : Fin d) :
    |valuesHermitian eigvalsh (Matrix.of (bloch (elStandardize eps sym l) k)) n - valuesHermitian eigvalsh (Matrix.of (bloch l k)) n| ≤
      d * (l.length * (eps * T)) :=
  C174_matrix _ _ _ _ (values_spectrum eigvalsh _ (hE _)) (values_spectrum eigvalsh _ (hE _))
    (fun a b => standardize_close sym eps heps l hT0 hT k hk a b) n

/-! ### Phonons -/

theorem sgnsqrt_mono {a b : ℝ} (h : a ≤ b) : Verif.Phon.sgnsqrt a ≤ Verif.Phon.sgnsqrt b := by
  unfold Verif.Phon.sgnsqrt
  rcases lt_trichotomy a 0 with ha | ha | ha
  · rw [sign_neg ha, abs_of_neg ha]
    rcases lt_trichotomy b 0 with hb | hb | hb
    · rw [sign_neg hb, abs_of_neg hb]
      have := Real.sqrt_le_sqrt (neg_le_neg h)
      simpa using this
    · subst hb
      simp
    · rw [sign_pos hb, abs_of_pos hb]
      have h1 := Real.sqrt_nonneg (-a)
      have h2 := Real.sqrt_nonneg b
      push_cast
      simp only [SignType.coe_neg_one, SignType.coe_one]
      linarith
  · subst ha
    rcases h.eq_or_lt with hb | hb
    · subst hb
      simp
    · rw [sign_pos hb, abs_of_pos hb]
      simp
  · have hb : 0 < b := ha.trans_le h
    rw [sign_pos hb, abs_of_pos hb, sign_pos ha, abs_of_pos ha]
    simpa using Real.sqrt_le_sqrt h

/-- Signed square roots of similar numbers. -/
theorem sgnsqrt_close {a b δ : ℝ} (h : |a - b| ≤ δ) : |Verif.Phon.sgnsqrt a - Verif.Phon.sgnsqrt b| ≤ Real.sqrt (2 * δ) := by
  have key : ∀ a b : ℝ, b ≤ a → a - b ≤ δ → Verif.Phon.sgnsqrt a - Verif.Phon.sgnsqrt b ≤ Real.sqrt (2 * δ) := by
    intro a b hba hd
    refine Real.le_sqrt_of_sq_le ?_
    unfold Verif.Phon.sgnsqrt
    rcases lt_trichotomy b 0 with hb | hb | hb
    · rw [sign_neg hb, abs_of_neg hb]
      rcases lt_trichotomy a 0 with ha | ha | ha
      · rw [sign_neg ha, abs_of_neg ha]
        have h1 := Real.sqrt_nonneg (-a)
        have h2 := Real.sqrt_le_sqrt (neg_le_neg hba)
        have h3 := Real.sq_sqrt (neg_nonneg.2 ha.le)
        have h4 := Real.sq_sqrt (neg_nonneg.2 hb.le)
        simp only [SignType.coe_neg_one]
        nlinarith
      · subst ha
        have h4 := Real.sq_sqrt (neg_nonneg.2 hb.le)
        simp only [SignType.coe_neg_one, sign_zero, SignType.coe_zero]
        nlinarith
      · rw [sign_pos ha, abs_of_pos ha]
        have h3 := Real.sq_sqrt ha.le
        have h4 := Real.sq_sqrt (neg_nonneg.2 hb.le)
        simp only [SignType.coe_neg_one, SignType.coe_one]
        nlinarith [sq_nonneg (Real.sqrt a - Real.sqrt (-b))]
    · subst hb
      rcases hba.eq_or_lt with ha | ha
      · subst ha
        simp only [sign_zero, SignType.coe_zero]
        nlinarith
      · rw [sign_pos ha, abs_of_pos ha]
        have h3 := Real.sq_sqrt ha.le
        simp only [sign_zero, SignType.coe_zero, SignType.coe_one]
        nlinarith
    · have ha : 0 < a := hb.trans_le hba
      rw [sign_pos ha, abs_of_pos ha, sign_pos hb, abs_of_pos hb]
      have h1 := Real.sqrt_nonneg b
      have h2 := Real.sqrt_le_sqrt hba
      have h3 := Real.sq_sqrt ha.le
      have h4 := Real.sq_sqrt hb.le
      simp only [SignType.coe_one]
      nlinarith
  rcases le_total b a with hba | hba
  · rw [abs_of_nonneg (sub_nonneg.2 (sgnsqrt_mono hba))]
    exact key a b hba ((le_abs_self _).trans h)
  · rw [abs_sub_comm, abs_of_nonneg (sub_nonneg.2 (sgnsqrt_mono hba))]
    rw [abs_sub_comm] at h
    exact key b a hba ((le_abs_self _).trans h)

theorem standardize_close_ph (sym : Bool) {T : ℝ} (eps : ℝ) (heps : 0 ≤ eps) (l : Blocks (Fin d) ℝ) (hT0 : 0 ≤ T)
    (hT : ∀ e ∈ l, ∀ a b, |e.2 a b| ≤ T) (q : Fin 3 → ℝ) (hq : sym = true → ∀ a b, star (dynMat l q b a) = dynMat l q a b) (a b : Fin d) :
    ‖dynMat (phStandardize eps sym l) q a b - dynMat l q a b‖ ≤ l.length * (eps * T) := by
  have key : ∀ a b, ‖dynMat (threshold eps l) q a b - dynMat l q a b‖ ≤ l.length * (eps * T) := by
    intro a b
    rw [norm_sub_rev]
    have := bloch_close (l.map fun e => (e.1, fun x y => (e.2 x y : ℂ))) ((threshold eps l).map fun e => (e.1, fun x y => (e.2 x y : ℂ))) q a b
      (ε := eps * T) (by
        rw [List.forall₂_map_left_iff, List.forall₂_map_right_iff]
        refine (threshold_close eps heps l hT0 hT).imp fun e e' h => ⟨h.1, ?_⟩
        dsimp only
        rw [← Complex.ofReal_sub, Complex.norm_real]
        exact h.2 a b)
    rwa [List.length_map] at this
  rw [phStandardize_threshold]
  cases sym with
  | false =>
    rw [C41_bloch_ph]
    exact key a b
  | true =>
    rw [C40_symmetrize_ph]
    have e : (dynMat (threshold eps l) q a b + star (dynMat (threshold eps l) q b a)) / 2 - dynMat l q a b =
        ((dynMat (threshold eps l) q a b - dynMat l q a b) + star (dynMat (threshold eps l) q b a - dynMat l q b a)) / 2 := by
      rw [star_sub, hq rfl a b]
      ring
    rw [e, norm_div, Complex.norm_ofNat, div_le_iff₀ (by norm_num)]
    refine (norm_add_le _ _).trans ?_
    rw [norm_star]
    linarith [key a b, key b a]

/-- **C174**: the same for force constants; squared frequencies and frequencies. -/
theorem C174_frequencies (eigvalsh : Matrix (Fin d) (Fin d) ℂ → Fin d → ℝ) (hE : ∀ A, Spectrum A (eigvalsh A)) (sym : Bool) {T : ℝ} (eps : ℝ)
    (heps : 0 ≤ eps) (l : Blocks (Fin d) ℝ) (hT0 : 0 ≤ T) (hT : ∀ e ∈ l, ∀ a b, |e.2 a b| ≤ T) (q : Fin 3 → ℝ)
    (hq : sym = true → ∀ a b, star (dynMat l q b a) = dynMat l q a b) (n : Fin d) :
    |valuesHermitian eigvalsh (Matrix.of (dynMat (phStandardize eps sym l) q)) n - valuesHermitian eigvalsh (Matrix.of (dynMat l q)) n| ≤
      d * (l.length * (eps * T)) ∧
    |Verif.Phon.sgnsqrt (valuesHermitian eigvalsh (Matrix.of (dynMat (phStandardize eps sym l) q)) n) -
      Verif.Phon.sgnsqrt (valuesHermitian eigvalsh (Matrix.of (dynMat l q)) n)| ≤ Real.sqrt (2 * (d * (l.length * (eps * T)))) := by
  have h := C174_matrix _ _ _ _ (values_spectrum eigvalsh _ (hE (Matrix.of (dynMat (phStandardize eps sym l) q))))
    (values_spectrum eigvalsh _ (hE (Matrix.of (dynMat l q)))) (fun a b => standardize_close_ph sym eps heps l hT0 hT q hq a b) n
  exact ⟨h, sgnsqrt_close h⟩

/-! ### Files -/

open Verif.Text in
/-- Model with exact hoppings, divided by degeneracies if requested. -/
noncomputable def exactBlocks (size : Nat) (divide : Bool) (l : List HrEntry) : Blocks (Fin size) ℂ :=
  l.map fun e => (e.R, fun a b => ⟨((e.H a b).1 / (if divide then (e.deg : ℚ) else 1) : ℚ), ((e.H a b).2 / (if divide then (e.deg : ℚ) else 1) : ℚ)⟩)

open Verif.Text in
/-- Model with hoppings from the file. -/
noncomputable def fileBlocks (size : Nat) (out : List (V3 × Elements)) : Blocks (Fin size) ℂ :=
  out.map fun o => (o.1, fun a b => ⟨(((o.2 a b).getD (0, 0)).1 : ℚ), (((o.2 a b).getD (0, 0)).2 : ℚ)⟩)

open Verif.Text in
/-- **C174**: writing and reading hoppings (six decimals) changes band energies by no more than 1e-6 times the numbers of orbitals and lattice
vectors. -/
theorem C174_file (eigvalsh : Matrix (Fin d) (Fin d) ℂ → Fin d → ℝ) (hE : ∀ A, Spectrum A (eigvalsh A)) (date : Str)
    (hdate : '\n' ∉ date ∧ 3 ≤ (words (date ++ ['\n'])).length) (divide : Bool) (h0 : 0 < d) (hd : d < 10 ^ 4) (l : List HrEntry) (hl : l ≠ [])
    (hn : ∀ e ∈ l, e.Narrow d) :
    ∃ out, readHr divide (writeHr date d l) = some (d, out) ∧ ∀ (k : Fin 3 → ℝ) (n : Fin d),
      |valuesHermitian eigvalsh (Matrix.of (bloch (fileBlocks d out) k)) n -
        valuesHermitian eigvalsh (Matrix.of (bloch (exactBlocks d divide l) k)) n| ≤ d * (l.length * 1e-6) := by
  obtain ⟨l', out, hp, -, hr, hf⟩ := C48_partial date hdate divide d h0 hd l hl hn
  refine ⟨out, hr, fun k n => ?_⟩
  refine C174_matrix _ _ _ _ (values_spectrum eigvalsh _ (hE _)) (values_spectrum eigvalsh _ (hE _)) (fun a b => ?_) n
  have e1 : bloch (exactBlocks d divide l) k a b = bloch (exactBlocks d divide l') k a b := by
    unfold bloch exactBlocks
    exact (((hp.map _).map _).sum_eq).symm
  rw [Matrix.of_apply, Matrix.of_apply, e1, norm_sub_rev]
  have hlen : l.length = (exactBlocks d divide l').length := by
    rw [exactBlocks, List.length_map, hp.length_eq]
  rw [hlen]
  refine bloch_close _ _ k a b ?_
  unfold exactBlocks fileBlocks
  rw [List.forall₂_map_left_iff, List.forall₂_map_right_iff]
  have hn' : ∀ e ∈ l', e.Narrow d := fun e he => hn e (hp.mem_iff.1 he)
  clear hp hr e1 hlen
  induction hf with
  | nil => exact List.Forall₂.nil
  | @cons e o l' out he _ ih =>
    refine List.Forall₂.cons ⟨he.1.symm, ?_⟩ (ih fun e he => hn' e (List.mem_cons_of_mem _ he))
    obtain ⟨x, y, ho, hx, hy⟩ := he.2 a a.isLt b b.isLt
    dsimp only
    rw [ho, Option.getD_some]
    have hD : (1 : ℚ) ≤ if divide then (e.deg : ℚ) else 1 := by
      split
      · have := (hn' e (List.mem_cons_self ..)).deg.1
        exact_mod_cast this
      · exact le_rfl
    generalize (if divide then (e.deg : ℚ) else 1) = D at hD
    have hb : ∀ u v : ℚ, |u - v| ≤ 1 / 2 / 10 ^ 6 → |((v / D : ℚ) : ℝ) - ((u / D : ℚ) : ℝ)| ≤ 1 / 2 / 10 ^ 6 := by
      intro u v h
      have : |v / D - u / D| ≤ 1 / 2 / 10 ^ 6 := by
        rw [← sub_div, abs_div, abs_of_pos (by linarith : 0 < D), abs_sub_comm]
        exact (div_le_self (abs_nonneg _) hD).trans h
      have h2 : ((|v / D - u / D| : ℚ) : ℝ) ≤ ((1 / 2 / 10 ^ 6 : ℚ) : ℝ) := by exact_mod_cast this
      rw [Rat.cast_abs, Rat.cast_sub] at h2
      refine h2.trans (le_of_eq ?_)
      norm_num
    refine (Complex.norm_le_abs_re_add_abs_im _).trans ?_
    rw [Complex.sub_re, Complex.sub_im]
    have h1 := hb x _ hx
    have h2 := hb y _ hy
    calc _ ≤ 1 / 2 / 10 ^ 6 + 1 / 2 / 10 ^ 6 := add_le_add h1 h2
      _ = (1e-6 : ℝ) := by norm_num

/-! ### Wave vectors -/

theorem phase_close (R : V3) (k k' : Fin 3 → ℝ) {κ : ℝ} (h : ∀ x, |k x - k' x| ≤ κ) :
    ‖phase R k - phase R k'‖ ≤ (|(R.1 : ℝ)| + |(R.2.1 : ℝ)| + |(R.2.2 : ℝ)|) * κ := by
  set t : ℝ := R.1 * (k 0 - k' 0) + R.2.1 * (k 1 - k' 1) + R.2.2 * (k 2 - k' 2) with ht
  have e : phase R k - phase R k' = phase R k' * (Complex.exp (Complex.I * (t : ℂ)) - 1) := by
    rw [mul_sub, mul_one]
    unfold phase
    rw [← Complex.exp_add]
    congr 2
    rw [ht]
    push_cast
    ring
  rw [e, norm_mul, Verif.TB.norm_phase, one_mul]
  refine (Real.norm_exp_I_mul_ofReal_sub_one_le).trans ?_
  rw [Real.norm_eq_abs, ht]
  refine (abs_add_three _ _ _).trans ?_
  rw [abs_mul, abs_mul, abs_mul, add_mul, add_mul]
  have := h 0
  have := h 1
  have := h 2
  gcongr <;> apply h

/-- **C174**: band energies are Lipschitz-continuous functions of the wave vector. -/
theorem C174_lipschitz (eigvalsh : Matrix (Fin d) (Fin d) ℂ → Fin d → ℝ) (hE : ∀ A, Spectrum A (eigvalsh A)) (l : Blocks (Fin d) ℂ) {T κ : ℝ}
    (hT : ∀ a b, (l.map fun e => ‖e.2 a b‖ * (|(e.1.1 : ℝ)| + |(e.1.2.1 : ℝ)| + |(e.1.2.2 : ℝ)|)).sum ≤ T) (k k' : Fin 3 → ℝ) (hκ : 0 ≤ κ)
    (hk : ∀ x, |k x - k' x| ≤ κ) (n : Fin d) :
    |valuesHermitian eigvalsh (Matrix.of (bloch l k)) n - valuesHermitian eigvalsh (Matrix.of (bloch l k')) n| ≤ d * (T * κ) := by
  refine C174_matrix _ _ _ _ (values_spectrum eigvalsh _ (hE _)) (values_spectrum eigvalsh _ (hE _)) (fun a b => ?_) n
  rw [Matrix.of_apply, Matrix.of_apply]
  refine le_trans ?_ (mul_le_mul_of_nonneg_right (hT a b) hκ)
  clear hT
  induction l with
  | nil => simp [bloch]
  | cons e l ih =>
    have e1 : bloch (e :: l) k a b - bloch (e :: l) k' a b = e.2 a b * (phase e.1 k - phase e.1 k') + (bloch l k a b - bloch l k' a b) := by
      simp only [bloch, List.map_cons, List.sum_cons]
      ring
    rw [e1, List.map_cons, List.sum_cons, add_mul]
    refine (norm_add_le _ _).trans (add_le_add ?_ ih)
    rw [norm_mul, mul_assoc]
    exact mul_le_mul_of_nonneg_left (phase_close e.1 k k' hk) (norm_nonneg _)

/-! ### Chemical potential -/

/-- **C174**: the chemical potential for a given number of electrons changes by no more than the energies. -/
theorem C174_level (nk bands : Nat) (hk : 0 < nk) (hb : 0 < bands) (f : ℝ → ℝ) (hf : StrictAnti f) (e e' : Fin (nk * bands) → ℝ) {δ : ℝ}
    (h : ∀ i, |e i - e' i| ≤ δ) {kT : ℝ} (hkT : 0 < kT) {n mu mu' : ℝ} (h1 : Verif.Occ.density nk bands f e kT mu = n)
    (h2 : Verif.Occ.density nk bands f e' kT mu' = n) : |mu - mu'| ≤ δ := by
  have key : ∀ (e e' : Fin (nk * bands) → ℝ) (mu mu' : ℝ), (∀ i, |e i - e' i| ≤ δ) →
      Verif.Occ.density nk bands f e kT mu = n → Verif.Occ.density nk bands f e' kT mu' = n → mu' ≤ mu + δ := by
    intro e e' mu mu' h h1 h2
    by_contra hlt
    rw [not_le] at hlt
    have hk' : (0 : ℝ) < nk := by exact_mod_cast hk
    have hs : ∑ i, f ((e i - mu) / kT) < ∑ i, f ((e' i - mu') / kT) := by
      haveI : Nonempty (Fin (nk * bands)) := ⟨⟨0, Nat.mul_pos hk hb⟩⟩
      refine Finset.sum_lt_sum_of_nonempty Finset.univ_nonempty fun i _ => hf ?_
      have := (abs_le.1 (h i)).1
      exact div_lt_div_of_pos_right (by linarith) hkT
    unfold Verif.Occ.density at h1 h2
    have : 2 * (∑ i, f ((e i - mu) / kT)) / nk < 2 * (∑ i, f ((e' i - mu') / kT)) / nk :=
      div_lt_div_of_pos_right (by linarith) hk'
    linarith
  have h3 := key e e' mu mu' h h1 h2
  have h4 := key e' e mu' mu (fun i => by rw [abs_sub_comm]; exact h i) h2 h1
  rw [abs_le]
  constructor <;> linarith

/-! ### Examples -/

theorem lower_isHermitian (A : Matrix (Fin d) (Fin d) ℂ) : (lower A).IsHermitian := by
  ext a b
  rw [Matrix.conjTranspose_apply]
  unfold lower
  rcases lt_trichotomy a b with h | h | h
  · rw [if_pos h, if_neg (not_lt.2 h.le), if_pos h]
  · subst h
    simp
  · rw [if_neg (not_lt.2 h.le), if_pos h, if_pos h, star_star]

/-- There are functions as required by the theorems. -/
theorem exists_eigvalsh : ∃ eigvalsh : Matrix (Fin d) (Fin d) ℂ → Fin d → ℝ, ∀ A, Spectrum A (eigvalsh A) := by
  have key : ∀ A : Matrix (Fin d) (Fin d) ℂ, ∃ v, Spectrum A v := by
    intro A
    have hA := lower_isHermitian A
    refine ⟨hA.eigenvalues ∘ Tuple.sort hA.eigenvalues, Tuple.monotone_sort _,
      fun x n => (hA.eigenvectorUnitary : Matrix (Fin d) (Fin d) ℂ) x (Tuple.sort hA.eigenvalues n), fun n x => ?_, fun m n => ?_⟩
    · have h := congrFun (hA.mulVec_eigenvectorBasis (Tuple.sort hA.eigenvalues n)) x
      simp only [Pi.smul_apply] at h
      simpa [Matrix.mulVec, dotProduct, Matrix.IsHermitian.eigenvectorUnitary_apply] using h
    · have hU := Matrix.mem_unitaryGroup_iff'.1 hA.eigenvectorUnitary.2
      have h := congrFun (congrFun hU (Tuple.sort hA.eigenvalues m)) (Tuple.sort hA.eigenvalues n)
      rw [Matrix.mul_apply, Matrix.one_apply] at h
      simp only [EmbeddingLike.apply_eq_iff_eq] at h
      exact h
  choose f hf using key
  exact ⟨f, hf⟩

example : ∃ eigvalsh : Matrix (Fin 2) (Fin 2) ℂ → Fin 2 → ℝ, ∀ n,
    |eigvalsh (Matrix.of fun a b => if a = b then 0 else 1) n - eigvalsh (Matrix.of fun a b => if a = b then 0 else 1.1) n| ≤ 2 * 0.1 := by
  obtain ⟨eigvalsh, hE⟩ := exists_eigvalsh (d := 2)
  refine ⟨eigvalsh, fun n => C174_matrix _ _ _ _ (hE _) (hE _) (fun a b => ?_) n⟩
  rw [Matrix.of_apply, Matrix.of_apply]
  split <;> norm_num

/-- A chain with hoppings -1 and -0.01: with a threshold of 5 %, energies change by no more than 0.2. -/
example (k : Fin 3 → ℝ) : ∃ eigvalsh : Matrix (Fin 1) (Fin 1) ℂ → Fin 1 → ℝ,
    |valuesHermitian eigvalsh (Matrix.of (bloch (elStandardize 0.05 false
      [((1, 0, 0), fun _ _ => -1), ((-1, 0, 0), fun _ _ => -1), ((2, 0, 0), fun _ _ => -0.01), ((-2, 0, 0), fun _ _ => -0.01)]) k)) 0 -
      valuesHermitian eigvalsh (Matrix.of (bloch
      [((1, 0, 0), fun _ _ => -1), ((-1, 0, 0), fun _ _ => -1), ((2, 0, 0), fun _ _ => -0.01), ((-2, 0, 0), fun _ _ => -0.01)] k)) 0| ≤ 0.2 := by
  obtain ⟨eigvalsh, hE⟩ := exists_eigvalsh (d := 1)
  refine ⟨eigvalsh, (C174_standardize eigvalsh hE false (T := 1) 0.05 (by norm_num) _ zero_le_one (fun e he a b => ?_) k (fun h => by cases h) 0).trans
    (by norm_num)⟩
  simp only [List.mem_cons, List.not_mem_nil, or_false] at he
  rcases he with rfl | rfl | rfl | rfl <;> norm_num

example (q : Fin 3 → ℝ) : ∃ eigvalsh : Matrix (Fin 1) (Fin 1) ℂ → Fin 1 → ℝ,
    |Verif.Phon.sgnsqrt (valuesHermitian eigvalsh (Matrix.of (dynMat (phStandardize 0.01 false
      [((0, 0, 0), fun _ _ => (2 : ℝ)), ((1, 0, 0), fun _ _ => -1), ((-1, 0, 0), fun _ _ => -1)]) q)) 0) -
      Verif.Phon.sgnsqrt (valuesHermitian eigvalsh (Matrix.of (dynMat
      [((0, 0, 0), fun _ _ => (2 : ℝ)), ((1, 0, 0), fun _ _ => -1), ((-1, 0, 0), fun _ _ => -1)] q)) 0)| ≤ Real.sqrt 0.12 := by
  obtain ⟨eigvalsh, hE⟩ := exists_eigvalsh (d := 1)
  refine ⟨eigvalsh, ((C174_frequencies eigvalsh hE false (T := 2) 0.01 (by norm_num) _ zero_le_two (fun e he a b => ?_) q (fun h => by cases h) 0).2).trans
    (le_of_eq (by norm_num))⟩
  simp only [List.mem_cons, List.not_mem_nil, or_false] at he
  rcases he with rfl | rfl | rfl <;> norm_num

open Verif.Text in
example (k : Fin 3 → ℝ) : ∃ (eigvalsh : Matrix (Fin 1) (Fin 1) ℂ → Fin 1 → ℝ) (out : List (V3 × Elements)),
    readHr true (writeHr exampleDate 1 [⟨(0, 0, 0), 2, fun _ _ => (1 / 3, 0)⟩]) = some (1, out) ∧
    |valuesHermitian eigvalsh (Matrix.of (bloch (fileBlocks 1 out) k)) 0 -
      valuesHermitian eigvalsh (Matrix.of (bloch (exactBlocks 1 true [⟨(0, 0, 0), 2, fun _ _ => (1 / 3, 0)⟩]) k)) 0| ≤ 1e-6 := by
  obtain ⟨eigvalsh, hE⟩ := exists_eigvalsh (d := 1)
  obtain ⟨out, h1, h2⟩ := C174_file eigvalsh hE exampleDate (by decide +kernel) true one_pos (by norm_num) [⟨(0, 0, 0), 2, fun _ _ => (1 / 3, 0)⟩]
    (by simp) (fun e he => by
      rw [List.mem_singleton] at he
      subst he
      refine ⟨by norm_num, by norm_num, fun a _ b _ => ?_⟩
      norm_num [abs_of_pos])
  exact ⟨eigvalsh, out, h1, (h2 k 0).trans (by norm_num)⟩

example (k k' : Fin 3 → ℝ) (hk : ∀ x, |k x - k' x| ≤ 0.1) : ∃ eigvalsh : Matrix (Fin 1) (Fin 1) ℂ → Fin 1 → ℝ,
    |valuesHermitian eigvalsh (Matrix.of (bloch [((1, 0, 0), fun _ _ => -1), ((-1, 0, 0), fun _ _ => -1)] k)) 0 -
      valuesHermitian eigvalsh (Matrix.of (bloch [((1, 0, 0), fun _ _ => -1), ((-1, 0, 0), fun _ _ => -1)] k')) 0| ≤ 0.2 := by
  obtain ⟨eigvalsh, hE⟩ := exists_eigvalsh (d := 1)
  exact ⟨eigvalsh, (C174_lipschitz eigvalsh hE _ (T := 2) (fun a b => by norm_num) k k' (by norm_num) hk 0).trans (by norm_num)⟩

example : |(0 : ℝ) - 0.1| ≤ 0.1 :=
  C174_level 1 1 one_pos one_pos (fun x => -x) (fun _ _ h => neg_lt_neg h) (fun _ => 1) (fun _ => 1.1) (fun _ => by norm_num [abs_of_nonneg]) one_pos (n := -2)
    (by norm_num [Verif.Occ.density]) (by norm_num [Verif.Occ.density])

end Verif.Bands
