import Verif.Phon.Model
import Verif.Fourier.Props
import Mathlib.Data.Complex.BigOperators

/-! # C45, C46, C60, C75: sum rules, masses, polarization -/

namespace Verif.Phon

open Verif.Voronoi (V3 mesh3 IsMesh)
open Verif.Fourier (sum_ite_mesh bloch phase shortRange byMass)

/-- The sum in `asr`. -/
def asrSum {n : Nat} (n1 n2 n3 : Nat) (phid : Phid n) (na1 : Fin n) (x y : Fin 3) : ℂ :=
  ((List.finRange n).flatMap fun na2 => ((mesh3 n1 n2 n3).filter fun m =>
      na1 ≠ na2 ∨ m.1 ≠ 0 ∨ m.2.1 ≠ 0 ∨ m.2.2 ≠ 0).map fun m => phid na1 na2 m x y).sum

theorem asrSum_step {n : Nat} (n1 n2 n3 : Nat) (phid : Phid n) (c a : Fin n) (x y : Fin 3) :
    asrSum n1 n2 n3 (asrStep n1 n2 n3 phid c) a x y = asrSum n1 n2 n3 phid a x y := by
  unfold asrSum
  congr 1
  congr 1
  funext na2
  apply List.map_congr_left
  intro m hm
  rw [List.mem_filter, decide_eq_true_eq] at hm
  unfold asrStep
  rw [if_neg]
  rintro ⟨h1, h2, h3⟩
  subst h1 h2 h3
  simp at hm

theorem asr_fold {n : Nat} (n1 n2 n3 : Nat) (L : List (Fin n)) (hL : L.Nodup) (phid : Phid n) (a b : Fin n) (m : V3)
    (x y : Fin 3) : L.foldl (asrStep n1 n2 n3) phid a b m x y =
      if a = b ∧ m = (0, 0, 0) ∧ a ∈ L then -asrSum n1 n2 n3 phid a x y else phid a b m x y := by
  induction L generalizing phid with
  | nil => simp
  | cons c L ih =>
    rw [List.nodup_cons] at hL
    rw [List.foldl_cons, ih hL.2, asrSum_step]
    by_cases h1 : a = b
    · by_cases h2 : m = (0, 0, 0)
      · by_cases h3 : a ∈ L
        · rw [if_pos ⟨h1, h2, h3⟩, if_pos ⟨h1, h2, List.mem_cons_of_mem _ h3⟩]
        · rw [if_neg (fun h => h3 h.2.2)]
          by_cases h4 : a = c
          · rw [if_pos ⟨h1, h2, h4 ▸ List.mem_cons_self⟩]
            unfold asrStep
            rw [if_pos ⟨h4, h1 ▸ h4, h2⟩, h4]
            rfl
          · rw [if_neg]
            · unfold asrStep
              rw [if_neg (fun h => h4 h.1)]
            · rintro ⟨-, -, h⟩
              rcases List.mem_cons.1 h with h | h
              · exact h4 h
              · exact h3 h
      · rw [if_neg (fun h => h2 h.2.1), if_neg (fun h => h2 h.2.1)]
        unfold asrStep
        rw [if_neg (fun h => h2 h.2.2)]
    · rw [if_neg (fun h => h1 h.1), if_neg (fun h => h1 h.1)]
      unfold asrStep
      rw [if_neg (fun h => h1 (h.1.trans h.2.1.symm))]

theorem asr_eq {n : Nat} (n1 n2 n3 : Nat) (phid : Phid n) (a b : Fin n) (m : V3) (x y : Fin 3) :
    asr n1 n2 n3 phid a b m x y =
      if a = b ∧ m = (0, 0, 0) then -asrSum n1 n2 n3 phid a x y else phid a b m x y := by
  unfold asr
  rw [asr_fold n1 n2 n3 _ (List.nodup_finRange n)]
  simp

theorem sum_filter_map {β : Type} (l : List β) (p : β → Bool) (g : β → ℂ) :
    ((l.filter p).map g).sum = (l.map fun x => if p x then g x else 0).sum := by
  induction l with
  | nil => rfl
  | cons x l ih =>
    rw [List.filter_cons]
    cases h : p x
    · simp [h, ih]
    · simp [h, ih]

theorem finRange_sum {n : Nat} (f : Fin n → ℂ) : ((List.finRange n).map f).sum = ∑ i, f i := by
  rw [← List.ofFn_eq_map, List.sum_ofFn]

/-- C45: `asr` makes the force constants of each atom sum to zero. -/
theorem C45_asr {n : Nat} (n1 n2 n3 : Nat) (h1 : 0 < n1) (h2 : 0 < n2) (h3 : 0 < n3) (phid : Phid n) (na1 : Fin n)
    (x y : Fin 3) :
    ∑ na2, ((mesh3 n1 n2 n3).map fun m => asr n1 n2 n3 phid na1 na2 m x y).sum = 0 := by
  have hm : IsMesh n1 n2 n3 (0, 0, 0) := by
    refine ⟨⟨le_refl _, ?_⟩, ⟨le_refl _, ?_⟩, le_refl _, ?_⟩ <;> simpa
  have hS : asrSum n1 n2 n3 phid na1 x y = ∑ na2, ((mesh3 n1 n2 n3).map fun m =>
      if na1 ≠ na2 ∨ m.1 ≠ 0 ∨ m.2.1 ≠ 0 ∨ m.2.2 ≠ 0 then phid na1 na2 m x y else 0).sum := by
    unfold asrSum
    rw [Verif.Fourier.sum_flatMap', finRange_sum]
    apply Finset.sum_congr rfl
    intro na2 _
    rw [sum_filter_map]
    simp only [decide_eq_true_eq]
  have hsplit : ∀ na2, ((mesh3 n1 n2 n3).map fun m => asr n1 n2 n3 phid na1 na2 m x y).sum =
      ((mesh3 n1 n2 n3).map fun m =>
        if na1 ≠ na2 ∨ m.1 ≠ 0 ∨ m.2.1 ≠ 0 ∨ m.2.2 ≠ 0 then phid na1 na2 m x y else 0).sum +
      if na1 = na2 then -asrSum n1 n2 n3 phid na1 x y else 0 := by
    intro na2
    have : (if na1 = na2 then -asrSum n1 n2 n3 phid na1 x y else 0) = ((mesh3 n1 n2 n3).map fun m =>
        if m = (0, 0, 0) then (if na1 = na2 then -asrSum n1 n2 n3 phid na1 x y else 0) else 0).sum :=
      (sum_ite_mesh n1 n2 n3 (0, 0, 0) hm fun _ => if na1 = na2 then -asrSum n1 n2 n3 phid na1 x y else 0).symm
    rw [this, ← List.sum_map_add]
    congr 1
    apply List.map_congr_left
    intro m _
    rw [asr_eq]
    by_cases e1 : na1 = na2
    · by_cases e2 : m = (0, 0, 0)
      · subst e1 e2
        simp
      · have : m.1 ≠ 0 ∨ m.2.1 ≠ 0 ∨ m.2.2 ≠ 0 := by
          by_contra h
          push Not at h
          exact e2 (Prod.ext h.1 (Prod.ext h.2.1 h.2.2))
        rw [if_neg (fun h => e2 h.2), if_pos (Or.inr this), if_neg e2, add_zero]
    · rw [if_neg (fun h => e1 h.1), if_pos (Or.inl e1), if_neg e1, ite_self, add_zero]
  simp only [hsplit]
  rw [Finset.sum_add_distrib, ← hS, Finset.sum_ite_eq Finset.univ na1]
  simp

/-- C45: `asr` changes nothing but the force constants of atoms with themselves. -/
theorem C45_asr_unchanged {n : Nat} (n1 n2 n3 : Nat) (phid : Phid n) (a b : Fin n) (m : V3) (x y : Fin 3)
    (h : a ≠ b ∨ m ≠ (0, 0, 0)) : asr n1 n2 n3 phid a b m x y = phid a b m x y := by
  rw [asr_eq, if_neg]
  rintro ⟨h1, h2⟩
  rcases h with h | h
  · exact h h1
  · exact h h2

example : asr 2 1 1 (fun (_ _ : Fin 1) m _ _ => if m = (1, 0, 0) then -3 else 7) 0 0 (0, 0, 0) 0 0 = 3 := by
  rw [asr_eq]
  simp [asrSum, mesh3, List.range_succ, List.finRange_succ]

/-- C45: `zasr` makes Born effective charges sum to zero. -/
theorem C45_zasr {n : Nat} (hn : 0 < n) (Z : Fin n → Fin 3 → Fin 3 → ℝ) (x y : Fin 3) :
    ∑ na, zasr Z na x y = 0 := by
  unfold zasr
  rw [Finset.sum_sub_distrib, Finset.sum_const, Finset.card_univ, Fintype.card_fin, nsmul_eq_mul,
    mul_div_cancel₀ _ (by exact_mod_cast hn.ne'), sub_self]

/-- C45: `zasr` does not change differences of Born effective charges. -/
theorem C45_zasr_differences {n : Nat} (Z : Fin n → Fin 3 → Fin 3 → ℝ) (a b : Fin n) (x y : Fin 3) :
    zasr Z a x y - zasr Z b x y = Z a x y - Z b x y := by
  unfold zasr
  ring

example : zasr (fun a : Fin 2 => fun _ _ => if a = 0 then 3 else 1) 0 0 0 = 1 := by
  simp [zasr, Fin.sum_univ_two]
  norm_num

/-! ### C46 -/

theorem mass_fold {n : Nat} (M : Fin n → ℝ) (L : List (Fin n)) (hL : L.Nodup)
    (dyn : Fin n × Fin 3 → Fin n × Fin 3 → ℂ) (a b : Fin n × Fin 3) :
    L.foldl (massStep M) dyn a b = dyn a b / (if a.1 ∈ L then (Real.sqrt (M a.1) : ℂ) else 1) /
      (if b.1 ∈ L then (Real.sqrt (M b.1) : ℂ) else 1) := by
  induction L generalizing dyn with
  | nil => simp
  | cons c L ih =>
    rw [List.nodup_cons] at hL
    rw [List.foldl_cons, ih hL.2]
    unfold massStep
    simp only [List.mem_cons]
    by_cases h1 : a.1 = c
    · have h1' : a.1 ∉ L := h1 ▸ hL.1
      by_cases h2 : b.1 = c
      · have h2' : b.1 ∉ L := h2 ▸ hL.1
        simp [h1, h2, hL.1]
      · simp only [h1, hL.1, h2, if_true, if_false, true_or, false_or]
        ring
    · by_cases h2 : b.1 = c
      · have h2' : b.1 ∉ L := h2 ▸ hL.1
        simp only [h1, hL.1, h2, if_true, if_false, true_or, false_or]
        ring
      · simp only [h1, h2, if_false, false_or]

/-- C46: what `divide_by_mass` does. -/
theorem C46_value {n : Nat} (M : Fin n → ℝ) (dyn : Fin n × Fin 3 → Fin n × Fin 3 → ℂ) (a b : Fin n × Fin 3) :
    divideByMass M dyn a b = dyn a b / ((Real.sqrt (M a.1) : ℂ) * (Real.sqrt (M b.1) : ℂ)) := by
  unfold divideByMass
  rw [mass_fold M _ (List.nodup_finRange n)]
  simp only [List.mem_finRange, if_true]
  rw [div_div]

theorem divideByMass_eq {n : Nat} (M : Fin n → ℝ) (dyn : Fin n × Fin 3 → Fin n × Fin 3 → ℂ) :
    divideByMass M dyn = byMass M dyn := by
  funext a b
  rw [C46_value]
  unfold byMass
  rw [div_div]

/-- C46: Hermitian force constants yield Hermitian dynamical matrices. -/
theorem C46_hermitian {n : Nat} (M : Fin n → ℝ) (dyn : Fin n × Fin 3 → Fin n × Fin 3 → ℂ)
    (h : ∀ a b, dyn b a = star (dyn a b)) (a b : Fin n × Fin 3) :
    divideByMass M dyn b a = star (divideByMass M dyn a b) := by
  rw [C46_value, C46_value, h a b]
  simp only [star_div₀, star_mul', Complex.star_def, Complex.conj_ofReal]
  rw [mul_comm]

/-- C46: the division can be undone. -/
theorem C46_inverse {n : Nat} (M : Fin n → ℝ) (hM : ∀ a, 0 < M a) (dyn : Fin n × Fin 3 → Fin n × Fin 3 → ℂ)
    (a b : Fin n × Fin 3) :
    divideByMass M dyn a b * ((Real.sqrt (M a.1) : ℂ) * (Real.sqrt (M b.1) : ℂ)) = dyn a b := by
  have ha : (Real.sqrt (M a.1) : ℂ) ≠ 0 := by exact_mod_cast (Real.sqrt_pos.2 (hM a.1)).ne'
  have hb : (Real.sqrt (M b.1) : ℂ) ≠ 0 := by exact_mod_cast (Real.sqrt_pos.2 (hM b.1)).ne'
  rw [C46_value, div_mul_cancel₀ _ (mul_ne_zero ha hb)]

/-- C46: quadratic forms agree in mass-weighted coordinates, so the signs of squared frequencies do not depend on the
(positive) masses. -/
theorem C46_form {n : Nat} (M : Fin n → ℝ) (hM : ∀ a, 0 < M a) (dyn : Fin n × Fin 3 → Fin n × Fin 3 → ℂ)
    (u : Fin n × Fin 3 → ℂ) :
    ∑ a, ∑ b, star (u a * (Real.sqrt (M a.1) : ℂ)) * divideByMass M dyn a b * (u b * (Real.sqrt (M b.1) : ℂ)) =
      ∑ a, ∑ b, star (u a) * dyn a b * u b := by
  apply Finset.sum_congr rfl
  intro a _
  apply Finset.sum_congr rfl
  intro b _
  have := C46_inverse M hM dyn a b
  rw [← this, star_mul']
  simp only [Complex.star_def, Complex.conj_ofReal]
  ring

example : divideByMass (fun a : Fin 2 => if a = 0 then 4 else 9) (fun _ _ => 6) (0, 0) (1, 2) = 1 := by
  rw [C46_value]
  have h1 : Real.sqrt 4 = 2 := by rw [show (4 : ℝ) = 2 ^ 2 by norm_num, Real.sqrt_sq (by norm_num)]
  have h2 : Real.sqrt 9 = 3 := by rw [show (9 : ℝ) = 3 ^ 2 by norm_num, Real.sqrt_sq (by norm_num)]
  simp [h1, h2]
  norm_num

/-! ### C45 for dynamical matrices -/

/-- C45: after `asr`, a uniform displacement of all atoms causes no forces: row sums of `D(0)` vanish, with the square
roots of the masses as weights if the model is divided by masses. -/
theorem C45_asr_D {n : Nat} (size : Nat) (hsize : 0 < size) (n1 n2 n3 : Nat) (h1 : 0 < n1) (h2 : 0 < n2) (h3 : 0 < n3)
    (at' : Fin 3 → Fin 3 → ℝ) (tau : Fin n → Fin 3 → ℝ) (M : Fin n → ℝ) (hM : ∀ a, 0 < M a) (phid : Phid n) :
    ∃ l, shortRange size n1 n2 n3 at' tau (-1) true (asr n1 n2 n3 phid) = some l ∧
      (∀ (a : Fin n) (x y : Fin 3), ∑ b, bloch l (fun _ => 0) (a, x) (b, y) = 0) ∧
      ∀ (a : Fin n) (x y : Fin 3), ∑ b, bloch (l.map fun e => (e.1, divideByMass M e.2)) (fun _ => 0) (a, x) (b, y) *
        (Real.sqrt (M b) : ℂ) = 0 := by
  obtain ⟨l, hl, hb⟩ := Verif.Fourier.shortRange_bloch (c := 3) size hsize n1 n2 n3 h1 h2 h3 at' tau (-1) (Or.inr rfl)
    (asr n1 n2 n3 phid)
  have h0 : Verif.Fourier.meshK n1 n2 n3 (0, 0, 0) = fun _ => 0 := by
    funext x
    fin_cases x <;> simp [Verif.Fourier.meshK]
  have hrow : ∀ (a : Fin n) (x y : Fin 3), ∑ b, bloch l (fun _ => 0) (a, x) (b, y) = 0 := by
    intro a x y
    rw [← C45_asr n1 n2 n3 h1 h2 h3 phid a x y]
    apply Finset.sum_congr rfl
    intro b _
    rw [← h0, hb]
    congr 1
    apply List.map_congr_left
    intro m _
    simp [Verif.Fourier.om3, Verif.Fourier.om_zero]
  refine ⟨l, hl, hrow, ?_⟩
  intro a x y
  have hs : ∀ b : Fin n, bloch (l.map fun e => (e.1, divideByMass M e.2)) (fun _ => 0) (a, x) (b, y) *
      (Real.sqrt (M b) : ℂ) = bloch l (fun _ => 0) (a, x) (b, y) / (Real.sqrt (M a) : ℂ) := by
    intro b
    have hb' : (Real.sqrt (M b) : ℂ) ≠ 0 := by exact_mod_cast (Real.sqrt_pos.2 (hM b)).ne'
    unfold bloch
    rw [List.map_map, ← List.sum_map_mul_right, div_eq_mul_inv, ← List.sum_map_mul_right]
    congr 1
    apply List.map_congr_left
    intro e _
    simp only [Function.comp, C46_value]
    field_simp
  simp only [hs]
  rw [← Finset.sum_div, hrow, zero_div]

example := C45_asr_D 4 (by norm_num) 2 3 1 (by norm_num) (by norm_num) (by norm_num) 1 (fun a : Fin 2 => fun _ => (a : ℝ) / 2)
  (fun a => (a : ℝ) + 1) (fun a => by positivity) fun a b m x y => if m = (1, 0, 0) ∧ x = y then (a : ℝ) + b else -1

/-! ### C60 -/

theorem polar_identity (z w : ℂ) (a b : ℝ) (h : a * a + b * b = 1) :
    ‖z * (a : ℂ) + w * (b : ℂ)‖ ^ 2 + ‖z * (b : ℂ) - w * (a : ℂ)‖ ^ 2 = ‖z‖ ^ 2 + ‖w‖ ^ 2 := by
  simp only [← Complex.normSq_eq_norm_sq, Complex.normSq_apply]
  simp only [Complex.add_re, Complex.add_im, Complex.sub_re, Complex.sub_im, Complex.mul_re, Complex.mul_im,
    Complex.ofReal_re, Complex.ofReal_im, mul_zero, sub_zero, zero_add, add_zero]
  linear_combination (z.re ^ 2 + z.im ^ 2 + w.re ^ 2 + w.im ^ 2) * h

theorem unit_vector (u v : ℝ) (h : ¬ Real.sqrt (u * u + v * v) < 1e-10) :
    u / Real.sqrt (u * u + v * v) * (u / Real.sqrt (u * u + v * v)) +
      v / Real.sqrt (u * u + v * v) * (v / Real.sqrt (u * u + v * v)) = 1 := by
  have h0 : Real.sqrt (u * u + v * v) ≠ 0 := by
    intro h0
    apply h
    rw [h0]
    norm_num
  have h1 : Real.sqrt (u * u + v * v) * Real.sqrt (u * u + v * v) = u * u + v * v :=
    Real.mul_self_sqrt (add_nonneg (mul_self_nonneg u) (mul_self_nonneg v))
  generalize Real.sqrt (u * u + v * v) = w at *
  rw [div_mul_div_comm, div_mul_div_comm, ← add_div, h1]
  exact div_self (h1 ▸ mul_ne_zero h0 h0)

/-- C60: the three weights add up to the squared norm of the eigenvector. -/
theorem C60_complete {n : Nat} (b1 b2 q : Fin 2 → ℝ) (e : Fin n → Fin 3 → ℂ) :
    ∑ i, polarization b1 b2 q e i = ∑ na, ∑ x, ‖e na x‖ ^ 2 := by
  unfold polarization
  simp only [Fin.sum_univ_three]
  split
  · simp only [Matrix.cons_val_zero, Matrix.cons_val_one, Matrix.cons_val_two, Matrix.tail_cons, Matrix.head_cons]
    rw [add_halves, ← Finset.sum_add_distrib, ← Finset.sum_add_distrib]
    apply Finset.sum_congr rfl
    intro na _
    rw [polar_identity _ _ 1 0 (by norm_num)]
  · rename_i h
    simp only [Matrix.cons_val_zero, Matrix.cons_val_one, Matrix.cons_val_two, Matrix.tail_cons, Matrix.head_cons]
    rw [← Finset.sum_add_distrib, ← Finset.sum_add_distrib]
    apply Finset.sum_congr rfl
    intro na _
    rw [polar_identity _ _ _ _ (unit_vector _ _ h)]

/-- C60: the weights are not negative. -/
theorem C60_nonneg {n : Nat} (b1 b2 q : Fin 2 → ℝ) (e : Fin n → Fin 3 → ℂ) (i : Fin 3) :
    0 ≤ polarization b1 b2 q e i := by
  unfold polarization
  simp only
  have h : ∀ f : Fin n → ℂ, 0 ≤ ∑ na, ‖f na‖ ^ 2 := fun f => Finset.sum_nonneg fun _ _ => sq_nonneg _
  split
  · fin_cases i
    · exact div_nonneg (add_nonneg (h _) (h _)) (by norm_num)
    · exact div_nonneg (add_nonneg (h _) (h _)) (by norm_num)
    · exact h _
  · fin_cases i
    · exact h _
    · exact h _
    · exact h _

/-- C60: for a nonvanishing wave vector, displacements along it are longitudinal, in-plane displacements perpendicular
to it are transverse. -/
theorem C60_direction {n : Nat} (b1 b2 q : Fin 2 → ℝ) (c : Fin n → ℂ)
    (hq : 1e-10 ≤ Real.sqrt ((q 0 * b1 0 + q 1 * b2 0) ^ 2 + (q 0 * b1 1 + q 1 * b2 1) ^ 2)) :
    polarization b1 b2 q (fun na => ![c na * ((q 0 * b1 0 + q 1 * b2 0 : ℝ) : ℂ),
        c na * ((q 0 * b1 1 + q 1 * b2 1 : ℝ) : ℂ), 0]) 1 = 0 ∧
      polarization b1 b2 q (fun na => ![c na * ((q 0 * b1 1 + q 1 * b2 1 : ℝ) : ℂ),
        -c na * ((q 0 * b1 0 + q 1 * b2 0 : ℝ) : ℂ), 0]) 0 = 0 := by
  have h : ¬ Real.sqrt ((q 0 * b1 0 + q 1 * b2 0) * (q 0 * b1 0 + q 1 * b2 0) +
      (q 0 * b1 1 + q 1 * b2 1) * (q 0 * b1 1 + q 1 * b2 1)) < 1e-10 := by
    rw [not_lt, ← pow_two, ← pow_two]
    exact hq
  unfold polarization
  simp only [if_neg h]
  constructor
  · simp only [Matrix.cons_val_one, Matrix.cons_val_zero]
    apply Finset.sum_eq_zero
    intro na _
    rw [sq_eq_zero_iff, norm_eq_zero]
    push_cast
    ring
  · simp only [Matrix.cons_val_one, Matrix.cons_val_zero]
    apply Finset.sum_eq_zero
    intro na _
    rw [sq_eq_zero_iff, norm_eq_zero]
    push_cast
    ring

example : polarization ![1, 0] ![0, 1] ![0, 2] (fun _ : Fin 1 => ![3, 0, 1]) 1 = 9 := by
  have h : Real.sqrt (2 * 2) = 2 := Real.sqrt_mul_self (by norm_num)
  unfold polarization
  simp [h]
  norm_num

/-! ### C75 -/

/-- C75: the signed square root determines its argument. -/
theorem C75_inverse (w2 : ℝ) : sgnsqrt w2 * |sgnsqrt w2| = w2 := by
  unfold sgnsqrt
  rcases lt_trichotomy w2 0 with h | h | h
  · rw [sign_neg h]
    simp only [SignType.coe_neg_one, neg_mul, one_mul, abs_neg, abs_of_nonneg (Real.sqrt_nonneg _),
      Real.mul_self_sqrt (abs_nonneg w2), abs_of_neg h, neg_neg]
    rw [Real.mul_self_sqrt (by linarith)]
    ring
  · simp [h]
  · rw [sign_pos h]
    simp only [SignType.coe_one, one_mul, abs_of_nonneg (Real.sqrt_nonneg _), abs_of_pos h]
    rw [Real.mul_self_sqrt h.le]

/-- C75: the signed square root is odd. -/
theorem C75_odd (w2 : ℝ) : sgnsqrt (-w2) = -sgnsqrt w2 := by
  unfold sgnsqrt
  rw [Left.sign_neg, abs_neg]
  simp

/-- C75: the signed square root is strictly increasing. -/
theorem C75_strictMono : StrictMono sgnsqrt := by
  intro x y h
  by_contra hc
  rw [not_lt] at hc
  have hx := C75_inverse x
  have hy := C75_inverse y
  have : sgnsqrt y * |sgnsqrt y| ≤ sgnsqrt x * |sgnsqrt x| := by
    rcases le_total 0 (sgnsqrt y) with h1 | h1
    · rw [abs_of_nonneg h1, abs_of_nonneg (h1.trans hc)]
      nlinarith
    · rw [abs_of_nonpos h1]
      rcases le_total 0 (sgnsqrt x) with h2 | h2
      · rw [abs_of_nonneg h2]
        nlinarith
      · rw [abs_of_nonpos h2]
        nlinarith
  linarith

example : sgnsqrt (-4) = -2 := by
  have h : Real.sqrt 4 = 2 := by rw [show (4 : ℝ) = 2 ^ 2 by norm_num, Real.sqrt_sq (by norm_num)]
  rw [C75_odd]
  unfold sgnsqrt
  rw [sign_pos (by norm_num), abs_of_pos (by norm_num), h]
  simp

end Verif.Phon
