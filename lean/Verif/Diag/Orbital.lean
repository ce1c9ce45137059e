import Verif.Diag.Potential

/-!
# Renormalized coupling, polarization, Fermi-surface averages, electron self-energy, conductivity
(C54, C82, C83, C84, C85, C86)
-/

namespace Verif.Diag

open Verif.Occ (gauss gaussDelta gaussDelta_pos C35_gauss C36_gauss boseEinstein fermiDirac)

/-! ### C54 -/

theorem newaxisLoop_dd (maxdim gdim : Nat) : ∀ (fuel d : Nat), d ≤ gdim - 1 → gdim - 1 - d < fuel → gdim - 1 ≤ maxdim →
    newaxisLoop maxdim true gdim fuel d = some (some (gdim - 1)) := by
  intro fuel
  induction fuel with
  | zero => intro d _ h _; omega
  | succ f ih =>
    intro d h1 h2 h3
    unfold newaxisLoop
    simp only [if_true, decide_eq_true_eq]
    split
    · rw [if_pos (by omega), ih (d + 1) (by omega) (by omega) h3]
    · congr 2
      omega

/-- C54 (missing: four-index interactions, see `C54_violated`): for density-density interactions, the loop ends and
`dg[..., a]` has as many dimensions as `g[..., a, a]`. The coupling has at least the axes of q points, modes, and both
orbitals. -/
theorem C54_partial (maxdim gdim : Nat) (h : 4 ≤ gdim) (h2 : gdim ≤ maxdim) : ∃ fuel d,
    renormDims maxdim true gdim fuel = some (some d) ∧ d - 1 = gdim - 2 ∧
      ∀ f, fuel ≤ f → renormDims maxdim true gdim f = some (some d) := by
  refine ⟨gdim, gdim - 1, ?_, by omega, fun f hf => ?_⟩
  · exact newaxisLoop_dd maxdim gdim gdim 3 (by omega) (by omega) (by omega)
  · exact newaxisLoop_dd maxdim gdim f 3 (by omega) (by omega) (by omega)

/-- C54: for four-index interactions, the condition of the loop is the number of dimensions of the coupling, which is not
zero, and an exception is raised when the maximum number of dimensions is exceeded, for all inputs. -/
theorem C54_violated (maxdim gdim : Nat) (h : 4 ≤ gdim) (fuel : Nat) (hf : maxdim < fuel) :
    renormDims maxdim false gdim fuel = none := by
  have key : ∀ fuel d, maxdim - d < fuel → newaxisLoop maxdim false gdim fuel d = none := by
    intro fuel
    induction fuel with
    | zero => intro d h; omega
    | succ f ih =>
      intro d hd
      unfold newaxisLoop
      have : decide (gdim ≠ 0) = true := decide_eq_true (by omega)
      simp only [Bool.false_eq_true, if_false, this, if_true]
      split
      · exact ih (d + 1) (by omega)
      · rfl
  exact key fuel 4 (by omega)

example : renormDims 32 true 6 100 = some (some 5) := by decide

section
variable {n1 n2 n3 nb : Nat} [NeZero n1] [NeZero n2] [NeZero n3]

/-! ### C82 -/

/-- C82: renormalization in the basis of orbitals, then transformation to the basis of bands, is the same as
transformation, then renormalization in the basis of bands. -/
theorem C82_basis {A : Type} [Fintype A] [DecidableEq A] (w : Mesh n1 n2 n3 → Fin nb → Fin nb → ℂ)
    (U : Mesh n1 n2 n3 → A → Fin nb → ℂ) (q : Nat × Nat × Nat) (W : A → A → ℂ) (g : Mesh n1 n2 n3 → A → A → ℂ)
    (k : Mesh n1 n2 n3) (m n : Fin nb) :
    renormBand w U q W (fun k m n => ∑ a, ∑ b, star (slice U q k a m) * g k a b * U k b n) k m n =
      ∑ a, ∑ b, star (slice U q k a m) * renormOrbital w U q W g k a b * U k b n := by
  unfold renormBand renormOrbital
  have hP : ∀ c, 2 / ((n1 * n2 * n3 : Nat) : ℂ) * ∑ k, ∑ m, ∑ n, slice U q k c m * star (U k c n) * w k m n *
      (∑ a, ∑ b, star (slice U q k a m) * g k a b * U k b n) = piG w U q g c c := by
    intro c
    unfold piG
    congr 1
    refine Finset.sum_congr rfl fun k _ => Finset.sum_congr rfl fun m _ => Finset.sum_congr rfl fun n _ => ?_
    simp only [Finset.mul_sum]
    refine Finset.sum_congr rfl fun a _ => Finset.sum_congr rfl fun b _ => ?_
    ring
  simp only [hP]
  have h1 : ∀ a b, star (slice U q k a m) * (if a = b then g k a b + ∑ c, W a c * piG w U q g c c else g k a b) *
      U k b n = star (slice U q k a m) * g k a b * U k b n +
        if a = b then ∑ c, star (slice U q k a m) * U k a n * W a c * piG w U q g c c else 0 := by
    intro a b
    split
    · rename_i h
      subst h
      have : ∑ c, star (slice U q k a m) * U k a n * W a c * piG w U q g c c =
          star (slice U q k a m) * U k a n * ∑ c, W a c * piG w U q g c c := by
        rw [Finset.mul_sum]
        exact Finset.sum_congr rfl fun c _ => by ring
      rw [this]
      ring
    · ring
  simp only [h1, Finset.sum_add_distrib, Finset.sum_ite_eq, Finset.mem_univ, if_true]

example (w : Mesh 6 6 1 → Fin 2 → Fin 2 → ℂ) (U : Mesh 6 6 1 → Fin 3 → Fin 2 → ℂ) (W : Fin 3 → Fin 3 → ℂ) (g : Mesh 6 6 1 → Fin 3 → Fin 3 → ℂ) :=
  C82_basis w U (1, 2, 0) W g (3, 3, 0) 0 1

/-- C82: there is no renormalization by a vanishing interaction, and it is linear in the interaction. -/
theorem C82_linear {A : Type} [Fintype A] [DecidableEq A] (w : Mesh n1 n2 n3 → Fin nb → Fin nb → ℂ)
    (U : Mesh n1 n2 n3 → A → Fin nb → ℂ) (q : Nat × Nat × Nat) (W1 W2 : A → A → ℂ) (s : ℂ)
    (g : Mesh n1 n2 n3 → A → A → ℂ) (k : Mesh n1 n2 n3) (a b : A) :
    renormOrbital w U q (fun a b => W1 a b + s * W2 a b) g k a b - g k a b =
      (renormOrbital w U q W1 g k a b - g k a b) + s * (renormOrbital w U q W2 g k a b - g k a b) := by
  unfold renormOrbital
  split
  · simp only [add_mul, Finset.sum_add_distrib]
    have : ∑ c, s * W2 a c * piG w U q g c c = s * ∑ c, W2 a c * piG w U q g c c := by
      rw [Finset.mul_sum]
      exact Finset.sum_congr rfl fun c _ => by ring
    rw [this]
    ring
  · ring

example (w : Mesh 6 6 1 → Fin 2 → Fin 2 → ℂ) (U : Mesh 6 6 1 → Fin 3 → Fin 2 → ℂ) (W1 W2 : Fin 3 → Fin 3 → ℂ)
    (g : Mesh 6 6 1 → Fin 3 → Fin 3 → ℂ) := C82_linear w U (1, 2, 0) W1 W2 Complex.I g (3, 3, 0) 0 1

/-! ### C83: polarization -/

/-- Weights of `polarization`. -/
noncomputable def polWeight (eps kT : ℝ) (occ delta : ℝ → ℝ) (e : Mesh n1 n2 n3 → Fin nb → ℝ)
    (subspace : Option (Mesh n1 n2 n3 → Fin nb → Bool)) (q : Fin 3 → ℝ) (k : Mesh n1 n2 n3) (m n : Fin nb) : ℝ :=
  let qi := qIndices n1 n2 n3 q
  let w := dfde eps e (fun k n => occ (e k n / kT)) (fun k n => delta (e k n / kT) / -kT) qi k m n
  match subspace with
  | none => w
  | some s => if slice s qi k m && s k n then 0 else w

theorem polarization_eq {A : Type} (eps kT : ℝ) (occ delta : ℝ → ℝ) (e : Mesh n1 n2 n3 → Fin nb → ℝ)
    (U : Mesh n1 n2 n3 → A → Fin nb → ℂ) (subspace : Option (Mesh n1 n2 n3 → Fin nb → Bool)) (q : Fin 3 → ℝ) (a b : A) :
    polarization eps kT occ delta e U subspace q a b = 2 / ((n1 * n2 * n3 : Nat) : ℂ) * ∑ m, ∑ n, ∑ k,
      star (star (slice U (qIndices n1 n2 n3 q) k a m) * U k a n) * (polWeight eps kT occ delta e subspace q k m n : ℂ) *
        (star (slice U (qIndices n1 n2 n3 q) k b m) * U k b n) := by
  unfold polarization polWeight
  cases subspace with
  | none => rfl
  | some s =>
    simp only
    congr 1
    refine Finset.sum_congr rfl fun m _ => Finset.sum_congr rfl fun n _ => Finset.sum_congr rfl fun k _ => ?_
    split <;> simp

/-- C83: the static polarization is Hermitian. -/
theorem C83_hermitian {A : Type} (eps kT : ℝ) (occ delta : ℝ → ℝ) (e : Mesh n1 n2 n3 → Fin nb → ℝ)
    (U : Mesh n1 n2 n3 → A → Fin nb → ℂ) (subspace : Option (Mesh n1 n2 n3 → Fin nb → Bool)) (q : Fin 3 → ℝ) (a b : A) :
    star (polarization eps kT occ delta e U subspace q a b) = polarization eps kT occ delta e U subspace q b a := by
  rw [polarization_eq, polarization_eq, star_mul', star_pre]
  congr 1
  simp only [star_sum]
  refine Finset.sum_congr rfl fun m _ => Finset.sum_congr rfl fun n _ => Finset.sum_congr rfl fun k _ => ?_
  simp only [star_mul', star_star, star_real]
  ring

example (e : Mesh 6 6 1 → Fin 2 → ℝ) (U : Mesh 6 6 1 → Fin 3 → Fin 2 → ℂ) :=
  C83_hermitian 1e-10 0.025 gauss gaussDelta e U (some fun _ n => n = 0) ![2 * Real.pi * (1 / 6 + 3), 0, 0]

theorem polarization_form {A : Type} [Fintype A] (eps kT : ℝ) (occ delta : ℝ → ℝ) (e : Mesh n1 n2 n3 → Fin nb → ℝ)
    (U : Mesh n1 n2 n3 → A → Fin nb → ℂ) (subspace : Option (Mesh n1 n2 n3 → Fin nb → Bool)) (q : Fin 3 → ℝ) (v : A → ℂ) :
    ∑ a, ∑ b, star (v a) * polarization eps kT occ delta e U subspace q a b * v b =
      ((2 / ((n1 * n2 * n3 : Nat) : ℝ) * ∑ m, ∑ n, ∑ k, polWeight eps kT occ delta e subspace q k m n *
        ‖∑ b, star (slice U (qIndices n1 n2 n3 q) k b m) * U k b n * v b‖ ^ 2 : ℝ) : ℂ) := by
  set UU := fun a k m n => star (slice U (qIndices n1 n2 n3 q) k a m) * U k a n with hUU
  have h1 : ∀ a b, star (v a) * polarization eps kT occ delta e U subspace q a b * v b =
      2 / ((n1 * n2 * n3 : Nat) : ℂ) * ∑ m, ∑ n, ∑ k, (polWeight eps kT occ delta e subspace q k m n : ℂ) *
        (star (UU a k m n * v a) * (UU b k m n * v b)) := by
    intro a b
    rw [polarization_eq, mul_comm (star (v a)), mul_assoc, mul_assoc]
    congr 1
    simp only [Finset.sum_mul]
    refine Finset.sum_congr rfl fun m _ => Finset.sum_congr rfl fun n _ => Finset.sum_congr rfl fun k _ => ?_
    simp only [hUU, star_mul', star_star]
    ring
  simp only [h1, ← Finset.mul_sum]
  push_cast
  congr 1
  have h2 : ∀ G : A → A → Fin nb → Fin nb → Mesh n1 n2 n3 → ℂ, ∑ a, ∑ b, ∑ m, ∑ n, ∑ k, G a b m n k =
      ∑ m, ∑ n, ∑ k, ∑ a, ∑ b, G a b m n k := by
    intro G
    have a1 : ∀ a, ∑ b, ∑ m, ∑ n, ∑ k, G a b m n k = ∑ m, ∑ n, ∑ k, ∑ b, G a b m n k := by
      intro a
      rw [Finset.sum_comm]
      refine Finset.sum_congr rfl fun m _ => ?_
      rw [Finset.sum_comm]
      refine Finset.sum_congr rfl fun n _ => ?_
      rw [Finset.sum_comm]
    simp only [a1]
    rw [Finset.sum_comm]
    refine Finset.sum_congr rfl fun m _ => ?_
    rw [Finset.sum_comm]
    refine Finset.sum_congr rfl fun n _ => ?_
    rw [Finset.sum_comm]
  rw [h2]
  refine Finset.sum_congr rfl fun m _ => Finset.sum_congr rfl fun n _ => Finset.sum_congr rfl fun k _ => ?_
  simp only [← Finset.mul_sum]
  rw [← Finset.sum_mul, ← star_sum]
  congr 1
  exact Complex.conj_mul' _

theorem polWeight_nonpos (eps kT : ℝ) (hkT : 0 < kT) (occ delta : ℝ → ℝ) (ho : Antitone occ) (hd : ∀ x, 0 ≤ delta x)
    (e : Mesh n1 n2 n3 → Fin nb → ℝ) (subspace : Option (Mesh n1 n2 n3 → Fin nb → Bool)) (q : Fin 3 → ℝ)
    (k : Mesh n1 n2 n3) (m n : Fin nb) : polWeight eps kT occ delta e subspace q k m n ≤ 0 ∧
      polWeight eps kT occ delta e none q k m n ≤ polWeight eps kT occ delta e subspace q k m n := by
  have h := dfde_nonpos eps kT hkT occ delta ho hd e (qIndices n1 n2 n3 q) k m n
  unfold polWeight
  cases subspace with
  | none => exact ⟨h, le_rfl⟩
  | some s =>
    simp only
    split
    · exact ⟨le_rfl, h⟩
    · exact ⟨h, le_rfl⟩

/-- C83: the static polarization is negative semidefinite, and excluding transitions within a subspace (cRPA) never
increases it in magnitude. -/
theorem C83_negative {A : Type} [Fintype A] (eps kT : ℝ) (hkT : 0 < kT) (occ delta : ℝ → ℝ) (ho : Antitone occ)
    (hd : ∀ x, 0 ≤ delta x) (e : Mesh n1 n2 n3 → Fin nb → ℝ) (U : Mesh n1 n2 n3 → A → Fin nb → ℂ)
    (subspace : Mesh n1 n2 n3 → Fin nb → Bool) (q : Fin 3 → ℝ) (v : A → ℂ) :
    ∃ r s : ℝ, ∑ a, ∑ b, star (v a) * polarization eps kT occ delta e U none q a b * v b = r ∧
      ∑ a, ∑ b, star (v a) * polarization eps kT occ delta e U (some subspace) q a b * v b = s ∧ r ≤ s ∧ s ≤ 0 := by
  refine ⟨_, _, polarization_form eps kT occ delta e U none q v, polarization_form eps kT occ delta e U _ q v, ?_, ?_⟩
  · refine mul_le_mul_of_nonneg_left ?_ (by positivity)
    refine Finset.sum_le_sum fun m _ => Finset.sum_le_sum fun n _ => Finset.sum_le_sum fun k _ => ?_
    exact mul_le_mul_of_nonneg_right (polWeight_nonpos eps kT hkT occ delta ho hd e _ q k m n).2 (sq_nonneg _)
  · apply mul_nonpos_of_nonneg_of_nonpos (by positivity)
    refine Finset.sum_nonpos fun m _ => Finset.sum_nonpos fun n _ => Finset.sum_nonpos fun k _ => ?_
    exact mul_nonpos_of_nonpos_of_nonneg (polWeight_nonpos eps kT hkT occ delta ho hd e _ q k m n).1 (sq_nonneg _)

example (e : Mesh 6 6 1 → Fin 2 → ℝ) (U : Mesh 6 6 1 → Fin 3 → Fin 2 → ℂ) :=
  C83_negative 1e-10 0.025 (by norm_num) gauss gaussDelta C35_gauss.anti.antitone (fun x => (gaussDelta_pos x).le) e U (fun _ n => n = 0)
    ![2 * Real.pi * (1 / 6 + 3), 0, 0]

/-- C83: for a complete basis, the sum of all elements at the zone center is the negative density of states (two spins). -/
theorem C83_dos {A : Type} [Fintype A] (eps kT : ℝ) (heps : 0 ≤ eps) (occ delta : ℝ → ℝ)
    (e : Mesh n1 n2 n3 → Fin nb → ℝ) (U : Mesh n1 n2 n3 → A → Fin nb → ℂ)
    (hU : ∀ k m n, ∑ a, star (U k a m) * U k a n = if m = n then 1 else 0) (q : Fin 3 → ℝ)
    (hq : OnMesh q (0 : Mesh n1 n2 n3)) :
    ∑ a, ∑ b, polarization eps kT occ delta e U none q a b =
      ((-(2 / ((n1 * n2 * n3 : Nat) : ℝ)) * ∑ k, ∑ n, delta (e k n / kT) / kT : ℝ) : ℂ) := by
  have h := polarization_form eps kT occ delta e U none q fun _ => 1
  simp only [star_one, one_mul, mul_one] at h
  rw [h]
  congr 1
  rw [neg_mul, ← mul_neg]
  congr 1
  have h1 : ∀ k m n, ∑ b, star (slice U (qIndices n1 n2 n3 q) k b m) * U k b n = if m = n then 1 else 0 := by
    intro k m n
    have : ∀ b, slice U (qIndices n1 n2 n3 q) k b m = U k b m := by
      intro b
      rw [slice_q _ q 0 k hq, add_zero]
    simp only [this, hU]
  simp only [h1]
  rw [← Finset.sum_neg_distrib]
  have h2 : ∀ m, ∑ n, ∑ k, polWeight eps kT occ delta e none q k m n * ‖(if m = n then (1 : ℂ) else 0)‖ ^ 2 =
      ∑ k, -(delta (e k m / kT) / kT) := by
    intro m
    rw [Finset.sum_eq_single m]
    · refine Finset.sum_congr rfl fun k _ => ?_
      rw [if_pos rfl, norm_one, one_pow, mul_one, ← weights_diagonal eps kT heps occ delta e q hq k m]
      unfold polWeight weights envelope
      simp
    · intro n _ hn
      refine Finset.sum_eq_zero fun k _ => ?_
      rw [if_neg hn.symm]
      simp
    · simp
  simp only [h2]
  rw [Finset.sum_comm]
  simp only [Finset.sum_neg_distrib]

example (e : Mesh 6 6 1 → Fin 2 → ℝ) :=
  C83_dos 1e-10 0.025 (by norm_num) gauss gaussDelta e (fun _ (a : Fin 2) n => if a = n then Complex.I else 0) (fun k m n => by
    rw [Fin.sum_univ_two]
    fin_cases m <;> fin_cases n <;> simp) ![2 * Real.pi * 3, 0, 0] ⟨![3, 0, 0], by norm_num, by norm_num, by simp⟩

/-! ### C84: averages over the Fermi surface -/

/-- C84: both parts refer to the points of the mesh. -/
theorem C84_value {X : Type} (kT : ℝ) (delta : ℝ → ℝ) (e : Mesh n1 n2 n3 → Fin nb → ℝ)
    (g2 : X → Mesh n1 n2 n3 → Fin nb → Fin nb → ℝ) (q : Fin 3 → ℝ) (j : Mesh n1 n2 n3) (hj : OnMesh q j) (nu : X) :
    fsEnum kT delta e g2 q nu =
      ∑ k, ∑ m, ∑ n, g2 nu k m n * (delta (e (k + j) m / kT) / kT * (delta (e k n / kT) / kT)) ∧
    fsDeno kT delta e q = ∑ k, ∑ m, ∑ n, delta (e (k + j) m / kT) / kT * (delta (e k n / kT) / kT) := by
  unfold fsEnum fsDeno
  simp only [slice_q _ q j _ hj]
  exact ⟨trivial, trivial⟩

example (e : Mesh 6 6 1 → Fin 2 → ℝ) (g2 : Fin 9 → Mesh 6 6 1 → Fin 2 → Fin 2 → ℝ) :=
  C84_value 0.025 gaussDelta e g2 ![2 * Real.pi * (1 / 6 + 3), 0, 0] (1, 0, 0) ⟨![3, 0, 0], by norm_num, by norm_num, by simp⟩

/-- C84: the average over the Fermi surface lies between the extreme values of the quantity averaged. -/
theorem C84_bounds {X : Type} (kT : ℝ) (delta : ℝ → ℝ) (hd : ∀ x, 0 ≤ delta x) (e : Mesh n1 n2 n3 → Fin nb → ℝ)
    (g2 : X → Mesh n1 n2 n3 → Fin nb → Fin nb → ℝ) (q : Fin 3 → ℝ) (nu : X) (lo hi : ℝ)
    (hlo : ∀ k m n, lo ≤ g2 nu k m n) (hhi : ∀ k m n, g2 nu k m n ≤ hi) :
    lo * fsDeno kT delta e q ≤ fsEnum kT delta e g2 q nu ∧ fsEnum kT delta e g2 q nu ≤ hi * fsDeno kT delta e q ∧
      0 ≤ fsDeno kT delta e q := by
  have hdd : ∀ k m n, 0 ≤ slice (fun k n => delta (e k n / kT) / kT) (qIndices n1 n2 n3 q) k m *
      (delta (e k n / kT) / kT) := by
    intro k m n
    rw [slice_eq]
    rcases le_total 0 kT with h | h
    · exact mul_nonneg (div_nonneg (hd _) h) (div_nonneg (hd _) h)
    · exact mul_nonneg_of_nonpos_of_nonpos (div_nonpos_of_nonneg_of_nonpos (hd _) h)
        (div_nonpos_of_nonneg_of_nonpos (hd _) h)
  unfold fsEnum fsDeno
  simp only [Finset.mul_sum]
  refine ⟨?_, ?_, ?_⟩
  · refine Finset.sum_le_sum fun k _ => Finset.sum_le_sum fun m _ => Finset.sum_le_sum fun n _ => ?_
    exact mul_le_mul_of_nonneg_right (hlo k m n) (hdd k m n)
  · refine Finset.sum_le_sum fun k _ => Finset.sum_le_sum fun m _ => Finset.sum_le_sum fun n _ => ?_
    exact mul_le_mul_of_nonneg_right (hhi k m n) (hdd k m n)
  · exact Finset.sum_nonneg fun k _ => Finset.sum_nonneg fun m _ => Finset.sum_nonneg fun n _ => hdd k m n

example (e : Mesh 6 6 1 → Fin 2 → ℝ) :=
  C84_bounds (X := Fin 9) 0.025 gaussDelta (fun x => (gaussDelta_pos x).le) e (fun _ _ m n => (m : ℝ) - n) ![2 * Real.pi * (1 / 6 + 3), 0, 0] 0 (-1) 1
    (fun _ m n => by fin_cases m <;> fin_cases n <;> norm_num) (fun _ m n => by fin_cases m <;> fin_cases n <;> norm_num)

/-- C84: the results for `q` and `-q` agree if the quantity averaged is that of a Hermitian perturbation. -/
theorem C84_inversion {X : Type} (kT : ℝ) (delta : ℝ → ℝ) (e : Mesh n1 n2 n3 → Fin nb → ℝ)
    (g2 G2 : X → Mesh n1 n2 n3 → Fin nb → Fin nb → ℝ) (q p : Fin 3 → ℝ) (j : Mesh n1 n2 n3) (hq : OnMesh q j)
    (hp : OnMesh p (-j)) (hg : ∀ x k m n, G2 x (k + j) n m = g2 x k m n) (nu : X) :
    fsEnum kT delta e G2 p nu = fsEnum kT delta e g2 q nu ∧ fsDeno kT delta e p = fsDeno kT delta e q := by
  rw [(C84_value kT delta e g2 q j hq nu).1, (C84_value kT delta e g2 q j hq nu).2,
    (C84_value kT delta e G2 p (-j) hp nu).1, (C84_value kT delta e G2 p (-j) hp nu).2]
  constructor
  · rw [← sum_shift _ j]
    refine Finset.sum_congr rfl fun k _ => ?_
    rw [Finset.sum_comm]
    refine Finset.sum_congr rfl fun m _ => Finset.sum_congr rfl fun n _ => ?_
    rw [hg, add_neg_cancel_right]
    ring
  · rw [← sum_shift _ j]
    refine Finset.sum_congr rfl fun k _ => ?_
    rw [Finset.sum_comm]
    refine Finset.sum_congr rfl fun m _ => Finset.sum_congr rfl fun n _ => ?_
    rw [add_neg_cancel_right]
    ring

example (e : Mesh 6 6 1 → Fin 2 → ℝ) (g2 : Fin 9 → Mesh 6 6 1 → Fin 2 → Fin 2 → ℝ) :=
  C84_inversion 0.025 gaussDelta e g2 (fun x k m n => g2 x (k - (1, 0, 0)) n m) ![2 * Real.pi * (1 / 6 + 3), 0, 0] ![2 * Real.pi * (5 / 6), 0, 0] (1, 0, 0)
    ⟨![3, 0, 0], by norm_num, by norm_num, by simp⟩ ⟨![0, 0, 0], by norm_num, by norm_num, by simp⟩ fun x k m n => by rw [add_sub_cancel_right]

/-- C84: the denominators for all points of the mesh add up to the square of the density of states. -/
theorem C84_sum (kT : ℝ) (delta : ℝ → ℝ) (e : Mesh n1 n2 n3 → Fin nb → ℝ) (q : Mesh n1 n2 n3 → Fin 3 → ℝ)
    (hq : ∀ j, OnMesh (q j) j) :
    ∑ j, fsDeno kT delta e (q j) = (∑ k, ∑ n, delta (e k n / kT) / kT) ^ 2 := by
  simp only [fun j => (C84_value (X := Unit) kT delta e (fun _ _ _ _ => 0) (q j) j (hq j) ()).2]
  rw [Finset.sum_comm, sq, Finset.sum_mul]
  have hk : ∀ k : Mesh n1 n2 n3, ∑ j, ∑ m, ∑ n, delta (e (k + j) m / kT) / kT * (delta (e k n / kT) / kT) =
      (∑ n, delta (e k n / kT) / kT) * ∑ j, ∑ m, delta (e j m / kT) / kT := by
    intro k
    rw [← sum_shift (fun j => ∑ m, delta (e j m / kT) / kT) k, Finset.mul_sum]
    refine Finset.sum_congr rfl fun j _ => ?_
    rw [Finset.sum_mul_sum, Finset.sum_comm]
    refine Finset.sum_congr rfl fun n _ => Finset.sum_congr rfl fun m _ => ?_
    rw [add_comm k j, mul_comm]
  simp only [hk]

/-! ### C85: electron self-energy -/

theorem im_div_nonpos (a : ℝ) (ha : 0 ≤ a) (z : ℂ) (hz : 0 < z.im) : ((a : ℂ) / z).im ≤ 0 := by
  rw [Complex.div_im]
  simp only [Complex.ofReal_im, Complex.ofReal_re, zero_mul, zero_div, zero_sub]
  have := Complex.normSq_nonneg z
  rw [neg_nonpos]
  exact div_nonneg (mul_nonneg ha hz.le) this

/-- C85: causality: above the real axis, the imaginary part is never positive, for occupations between zero and one and
positive phonon frequencies. -/
theorem C85_causal {X : Type} [Fintype X] (kT : ℝ) (hkT : 0 < kT) (occ : ℝ → ℝ) (ho : ∀ x, 0 ≤ occ x ∧ occ x ≤ 1)
    (e : Mesh n1 n2 n3 → Fin nb → ℝ) (w : Mesh n1 n2 n3 → X → ℝ) (hw : ∀ q nu, 0 < w q nu) (k : Fin 3 → ℝ)
    (g2 : Mesh n1 n2 n3 → X → Fin nb → ℝ) (hg : ∀ q nu m, 0 ≤ g2 q nu m) (omega : ℂ) (hom : 0 < omega.im) :
    (fanMigdal kT occ boseEinstein e w k g2 omega).im ≤ 0 := by
  have hN : ∀ q nu, 0 ≤ boseEinstein (w q nu / kT) := by
    intro q nu
    unfold boseEinstein
    have h : 0 < min (w q nu / kT) Verif.Occ.xmax := lt_min (div_pos (hw q nu) hkT) (by unfold Verif.Occ.xmax; norm_num)
    have := Real.one_lt_exp_iff.2 h
    exact div_nonneg zero_le_one (by linarith)
  unfold fanMigdal
  simp only
  have hpre : (1 / ((n1 * n2 * n3 : Nat) : ℂ)) = ((1 / ((n1 * n2 * n3 : Nat) : ℝ) : ℝ) : ℂ) := by push_cast; rfl
  rw [hpre, Complex.im_ofReal_mul]
  apply mul_nonpos_of_nonneg_of_nonpos (by positivity)
  simp only [Complex.im_sum]
  refine Finset.sum_nonpos fun q _ => Finset.sum_nonpos fun nu _ => Finset.sum_nonpos fun m _ => ?_
  rw [Complex.im_ofReal_mul]
  apply mul_nonpos_of_nonneg_of_nonpos (hg q nu m)
  rw [Complex.add_im]
  have hocc := ho (slice e (qIndices n1 n2 n3 k) q m / kT)
  have hN' := hN q nu
  apply add_nonpos
  · exact im_div_nonpos _ (by linarith) _ (by simpa using hom)
  · exact im_div_nonpos _ (by linarith) _ (by simpa using hom)

/-- C85: the value below the real axis is the complex conjugate of that above. -/
theorem C85_conj {X : Type} [Fintype X] (kT : ℝ) (occ bose : ℝ → ℝ) (e : Mesh n1 n2 n3 → Fin nb → ℝ)
    (w : Mesh n1 n2 n3 → X → ℝ) (k : Fin 3 → ℝ) (g2 : Mesh n1 n2 n3 → X → Fin nb → ℝ) (omega : ℂ) :
    fanMigdal kT occ bose e w k g2 (star omega) = star (fanMigdal kT occ bose e w k g2 omega) := by
  unfold fanMigdal
  have hpre : star (1 / ((n1 * n2 * n3 : Nat) : ℂ)) = 1 / ((n1 * n2 * n3 : Nat) : ℂ) := by
    have : (1 / ((n1 * n2 * n3 : Nat) : ℂ)) = ((1 / ((n1 * n2 * n3 : Nat) : ℝ) : ℝ) : ℂ) := by push_cast; rfl
    rw [this, star_real]
  simp only [star_mul', star_sum, star_add, star_div₀, star_sub, star_real, hpre]

example (e : Mesh 6 6 1 → Fin 1 → ℝ) (k : Fin 3 → ℝ) :=
  C85_conj 0.025 fermiDirac boseEinstein e (fun _ (_ : Fin 1) => 0.01) k (fun _ _ _ => 0.1) (0.5 + 0.001 * Complex.I)

/-- C85: spectral form at points of the mesh: energies gained or lost are the phonon frequencies. -/
theorem C85_value {X : Type} [Fintype X] (kT : ℝ) (occ bose : ℝ → ℝ) (e : Mesh n1 n2 n3 → Fin nb → ℝ)
    (w : Mesh n1 n2 n3 → X → ℝ) (k : Fin 3 → ℝ) (j : Mesh n1 n2 n3) (hj : OnMesh k j)
    (g2 : Mesh n1 n2 n3 → X → Fin nb → ℝ) (omega : ℂ) :
    fanMigdal kT occ bose e w k g2 omega = 1 / ((n1 * n2 * n3 : Nat) : ℂ) * ∑ q, ∑ nu, ∑ m, (g2 q nu m : ℂ) *
      (((occ (e (q + j) m / kT) + bose (w q nu / kT) : ℝ) : ℂ) / (omega - e (q + j) m + w q nu) +
        ((1 - occ (e (q + j) m / kT) + bose (w q nu / kT) : ℝ) : ℂ) / (omega - e (q + j) m - w q nu)) := by
  unfold fanMigdal
  simp only [slice_q _ k j _ hj]

example (e : Mesh 6 6 1 → Fin 1 → ℝ) :=
  C85_value 0.025 fermiDirac boseEinstein e (fun _ (_ : Fin 1) => 0.01) ![2 * Real.pi * (1 / 6 + 3), 0, 0] (1, 0, 0) ⟨![3, 0, 0], by norm_num, by norm_num, by simp⟩
    (fun _ _ _ => 0.1) (0.5 + 0.001 * Complex.I)

end

/-! ### C86: conductivity -/

/-- C86: symmetric tensor. -/
theorem C86_symmetric {S : Type} [Fintype S] (nq nw iw0 : Nat) (domega kT : ℝ) (occ delta : ℝ → ℝ)
    (v : S → Fin 3 → ℝ) (A : S → Nat → ℝ) (iw : Nat) (x y : Fin 3) :
    greenKubo nq nw iw0 domega kT occ delta v A iw x y = greenKubo nq nw iw0 domega kT occ delta v A iw y x := by
  unfold greenKubo
  simp only
  congr 1
  refine Finset.sum_congr rfl fun i _ => ?_
  congr 1
  refine Finset.sum_congr rfl fun s _ => ?_
  ring

/-- C86: even function of frequency. -/
theorem C86_even {S : Type} [Fintype S] (nq nw iw0 : Nat) (domega kT : ℝ) (occ delta : ℝ → ℝ)
    (v : S → Fin 3 → ℝ) (A : S → Nat → ℝ) (iw iw' : Nat) (h : iw + iw' = 2 * iw0) (x y : Fin 3) :
    greenKubo nq nw iw0 domega kT occ delta v A iw x y = greenKubo nq nw iw0 domega kT occ delta v A iw' x y := by
  by_cases h0 : iw = iw0
  · have : iw' = iw0 := by omega
    rw [h0, this]
  have h0' : iw' ≠ iw0 := by omega
  rw [C86_symmetric nq nw iw0 domega kT occ delta v A iw' x y]
  unfold greenKubo
  simp only
  have e1 : (max 0 (-((iw : Int) - (iw0 : Int)))).toNat = (max 0 ((iw' : Int) - (iw0 : Int))).toNat := by
    congr 2
    omega
  have e2 : (max 0 ((iw : Int) - (iw0 : Int))).toNat = (max 0 (-((iw' : Int) - (iw0 : Int)))).toNat := by
    congr 2
    omega
  simp only [e1, e2, h0, h0', if_false]
  rw [Nat.sub_right_comm]
  congr 1
  refine Finset.sum_congr rfl fun i _ => ?_
  have e3 : ((iw' : ℝ) - iw0) * domega = -(((iw : ℝ) - iw0) * domega) := by
    have : (iw : ℝ) + iw' = 2 * iw0 := by exact_mod_cast h
    linear_combination domega * this
  rw [e3, div_neg, ← neg_div, neg_sub (occ _)]
  have e4 : ∀ f g : S → ℝ, (∀ s, f s = g s) → ∑ s, f s = ∑ s, g s := fun f g h => Finset.sum_congr rfl fun s _ => h s
  rw [e4 _ _ fun s => mul_comm _ _]

/-- C86: positive semidefinite tensor: there is no emission of energy at any frequency of the mesh. -/
theorem C86_positive {S : Type} [Fintype S] (nq nw iw0 : Nat) (domega kT : ℝ) (hd : 0 ≤ domega) (hkT : 0 < kT)
    (occ delta : ℝ → ℝ) (ho : Antitone occ) (hdel : ∀ x, 0 ≤ delta x) (v : S → Fin 3 → ℝ) (A : S → Nat → ℝ)
    (hA : ∀ s i, 0 ≤ A s i) (iw : Nat) (u : Fin 3 → ℝ) :
    0 ≤ ∑ x, ∑ y, u x * greenKubo nq nw iw0 domega kT occ delta v A iw x y * u y := by
  set m := (max 0 (-((iw : Int) - (iw0 : Int)))).toNat with hm
  set p := (max 0 ((iw : Int) - (iw0 : Int))).toNat with hp
  set a : Nat → ℝ := fun i => if iw = iw0 then delta (((i : ℝ) - (iw0 : ℝ)) * domega / kT) / kT else
    (occ ((((m + i : Nat) : ℝ) - (iw0 : ℝ)) * domega / kT) - occ ((((p + i : Nat) : ℝ) - (iw0 : ℝ)) * domega / kT)) /
      (((iw : ℝ) - (iw0 : ℝ)) * domega) with ha
  have ha0 : ∀ i, 0 ≤ a i := by
    intro i
    simp only [ha]
    split
    · exact div_nonneg (hdel _) hkT.le
    · rename_i hne
      have hmono : ∀ c d : Nat, c ≤ d → occ (((d : ℝ) - (iw0 : ℝ)) * domega / kT) ≤
          occ (((c : ℝ) - (iw0 : ℝ)) * domega / kT) := by
        intro c d hcd
        apply ho
        apply div_le_div_of_nonneg_right _ hkT.le
        apply mul_le_mul_of_nonneg_right _ hd
        have : (c : ℝ) ≤ d := by exact_mod_cast hcd
        linarith
      rcases Nat.lt_or_gt_of_ne hne with h | h
      · have := hmono (p + i) (m + i) (by omega)
        apply div_nonneg_of_nonpos (by linarith)
        apply mul_nonpos_of_nonpos_of_nonneg _ hd
        have : (iw : ℝ) ≤ iw0 := by exact_mod_cast h.le
        linarith
      · have := hmono (m + i) (p + i) (by omega)
        apply div_nonneg (by linarith)
        apply mul_nonneg _ hd
        have : (iw0 : ℝ) ≤ iw := by exact_mod_cast h.le
        linarith
  have hform : ∑ x, ∑ y, u x * greenKubo nq nw iw0 domega kT occ delta v A iw x y * u y =
      4 * Real.pi / nq * domega * ∑ i ∈ Finset.range (nw - p - m), a i *
        ∑ s, A s (m + i) * A s (p + i) * (∑ x, u x * v s x) ^ 2 := by
    have h1 : ∀ x y, u x * greenKubo nq nw iw0 domega kT occ delta v A iw x y * u y =
        4 * Real.pi / nq * domega * ∑ i ∈ Finset.range (nw - p - m), ∑ s,
          a i * (A s (m + i) * A s (p + i)) * ((u x * v s x) * (u y * v s y)) := by
      intro x y
      have h0 : greenKubo nq nw iw0 domega kT occ delta v A iw x y = 4 * Real.pi / nq * domega *
          ∑ i ∈ Finset.range (nw - p - m), a i * ∑ s, (v s x * A s (m + i)) * (v s y * A s (p + i)) := rfl
      rw [h0, mul_comm (u x), mul_assoc, mul_assoc]
      congr 1
      rw [Finset.sum_mul]
      refine Finset.sum_congr rfl fun i _ => ?_
      rw [Finset.mul_sum, Finset.sum_mul]
      refine Finset.sum_congr rfl fun s _ => ?_
      ring
    simp only [h1, ← Finset.mul_sum]
    congr 1
    have h2 : ∀ x, ∑ y, ∑ i ∈ Finset.range (nw - p - m), ∑ s,
        a i * (A s (m + i) * A s (p + i)) * ((u x * v s x) * (u y * v s y)) =
        ∑ i ∈ Finset.range (nw - p - m), ∑ s, ∑ y,
        a i * (A s (m + i) * A s (p + i)) * ((u x * v s x) * (u y * v s y)) := by
      intro x
      rw [Finset.sum_comm]
      refine Finset.sum_congr rfl fun i _ => ?_
      rw [Finset.sum_comm]
    simp only [h2]
    rw [Finset.sum_comm]
    refine Finset.sum_congr rfl fun i _ => ?_
    rw [Finset.sum_comm, Finset.mul_sum]
    refine Finset.sum_congr rfl fun s _ => ?_
    rw [sq, Finset.sum_mul_sum]
    simp only [Finset.mul_sum]
    refine Finset.sum_congr rfl fun x _ => Finset.sum_congr rfl fun y _ => ?_
    ring
  rw [hform]
  have hpi := Real.pi_pos
  refine mul_nonneg (by positivity) (Finset.sum_nonneg fun i _ => mul_nonneg (ha0 i) (Finset.sum_nonneg fun s _ => ?_))
  exact mul_nonneg (mul_nonneg (hA _ _) (hA _ _)) (sq_nonneg _)

/-- Causality for a mesh with one band and one mode, Fermi-Dirac occupations. -/
example (e : Mesh 6 6 1 → Fin 1 → ℝ) (k : Fin 3 → ℝ) :
    (fanMigdal 0.025 fermiDirac boseEinstein e (fun _ (_ : Fin 1) => 0.01) k (fun _ _ _ => 0.1)
      (0.5 + 0.001 * Complex.I)).im ≤ 0 := by
  refine C85_causal 0.025 (by norm_num) fermiDirac ?_ e _ (fun _ _ => by norm_num) k _ (fun _ _ _ => by norm_num) _ ?_
  · intro x
    unfold fermiDirac
    have := Real.exp_pos (min x Verif.Occ.xmax)
    refine ⟨by positivity, ?_⟩
    rw [div_le_one (by positivity)]
    linarith
  · norm_num

example (v : Fin 12 → Fin 3 → ℝ) (u : Fin 3 → ℝ) :
    0 ≤ ∑ x, ∑ y, u x * greenKubo 12 101 50 0.1 0.025 gauss gaussDelta v (fun _ _ => 1) 53 x y * u y :=
  C86_positive 12 101 50 0.1 0.025 (by norm_num) (by norm_num) gauss gaussDelta C35_gauss.anti.antitone
    (fun x => (gaussDelta_pos x).le) v _ (fun _ _ => zero_le_one) 53 u

example (e : Mesh 4 4 1 → Fin 2 → ℝ) : ∑ j : Mesh 4 4 1, fsDeno 0.025 gaussDelta e (fun i =>
    2 * Real.pi * (![(j.1.1 : ℝ) / 4, (j.2.1.1 : ℝ) / 4, (j.2.2.1 : ℝ) / 1] i)) =
    (∑ k, ∑ n, gaussDelta (e k n / 0.025) / 0.025) ^ 2 := by
  apply C84_sum
  intro j
  exact ⟨fun _ => 0, by simp, by simp, by simp⟩

end Verif.Diag
