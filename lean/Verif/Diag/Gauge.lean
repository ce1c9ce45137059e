import Verif.Diag.Derivatives

/-!
# Independence of diagrams of the choice of eigenvectors (C153)

Eigenvectors from a diagonalization routine have arbitrary phases and are arbitrary orthonormal bases of degenerate subspaces.
-/

namespace Verif.Diag.Derivatives

open Matrix

variable {n1 n2 n3 nb : Nat} [NeZero n1] [NeZero n2] [NeZero n3] {X : Type} [DecidableEq X]

/-! ### Weights as functions of energies -/

/-- Static weight without the window. -/
noncomputable def staticFn (eps kT : ℝ) (occ delta : ℝ → ℝ) (x y : ℝ) : ℝ :=
  if |x - y| > eps then (occ (x / kT) - occ (y / kT)) / (x - y) else delta (x / kT) / -kT

/-- Envelope. -/
noncomputable def envelopeFn (win : Option Window) (x y : ℝ) : ℝ :=
  match win with
  | none => 1
  | some w => if w.diff then w.Theta y * w.del x + w.del y * w.Theta x else w.Theta y * w.Theta x

/-- Dynamic weight. -/
noncomputable def dynamicFn (omega : ℂ) (kT : ℝ) (occ : ℝ → ℝ) (x y : ℝ) : ℂ :=
  ((occ (x / kT) - occ (y / kT) : ℝ) : ℂ) / (omega + ((x - y : ℝ) : ℂ))

theorem dfde_fn (eps kT : ℝ) (occ delta : ℝ → ℝ) (e : Mesh n1 n2 n3 → Fin nb → ℝ) (q : Fin 3 → ℝ) (j : Mesh n1 n2 n3)
    (hq : OnMesh q j) (k : Mesh n1 n2 n3) (m n : Fin nb) :
    dfde eps e (fun k n => occ (e k n / kT)) (fun k n => delta (e k n / kT) / -kT) (qIndices n1 n2 n3 q) k m n =
      staticFn eps kT occ delta (e k n) (e (k + j) m) := by
  unfold dfde staticFn
  simp only [slice_q _ q j _ hq]

theorem weights_fn (eps kT : ℝ) (occ delta : ℝ → ℝ) (win : Option Window) (e : Mesh n1 n2 n3 → Fin nb → ℝ) (q : Fin 3 → ℝ)
    (j : Mesh n1 n2 n3) (hq : OnMesh q j) (k : Mesh n1 n2 n3) (m n : Fin nb) : weights eps kT occ delta win e q k m n =
      staticFn eps kT occ delta (e k n) (e (k + j) m) * envelopeFn win (e k n) (e (k + j) m) := by
  unfold weights
  simp only [dfde_fn eps kT occ delta e q j hq]
  congr 1
  unfold envelope envelopeFn
  cases win with
  | none => rfl
  | some w => simp only [slice_q _ q j _ hq]

/-! ### C153 -/

section
variable {H : Mesh n1 n2 n3 → Matrix (Fin nb) (Fin nb) ℂ} {e e' : Mesh n1 n2 n3 → Fin nb → ℝ}
  {U U' : Mesh n1 n2 n3 → Matrix (Fin nb) (Fin nb) ℂ} (h : ∀ k, Diagonalizes (H k) (e k) (U k))
  (h' : ∀ k, Diagonalizes (H k) (e' k) (U' k))

/-- Coupling `g` between states at `k` and `k + q`, from orbitals. -/
def coupling (U : Mesh n1 n2 n3 → Matrix (Fin nb) (Fin nb) ℂ) (j : Mesh n1 n2 n3)
    (g : X → Mesh n1 n2 n3 → Matrix (Fin nb) (Fin nb) ℂ) : Cpl n1 n2 n3 nb X := fun x k => mix (U (k + j)) (g x k) (U k)

theorem pair_sum (w : ℝ → ℝ → ℂ) (j k : Mesh n1 n2 n3) (e : Mesh n1 n2 n3 → Fin nb → ℝ) (U : Mesh n1 n2 n3 → Matrix (Fin nb) (Fin nb) ℂ)
    (g G : Matrix (Fin nb) (Fin nb) ℂ) :
    ∑ m, ∑ n, star (mix (U (k + j)) g (U k) m n) * mix (U (k + j)) G (U k) m n * w (e k n) (e (k + j) m) =
      sum2 w (e k) (e (k + j)) (U k) (U (k + j)) gᴴ G := by
  unfold sum2
  rw [Finset.sum_comm]
  refine Finset.sum_congr rfl fun n _ => Finset.sum_congr rfl fun m _ => ?_
  rw [star_mix, mul_comm]

theorem selfEnergy_pairs (sym diag : Bool) (w : ℝ → ℝ → ℂ) (j : Mesh n1 n2 n3) (e : Mesh n1 n2 n3 → Fin nb → ℝ)
    (U : Mesh n1 n2 n3 → Matrix (Fin nb) (Fin nb) ℂ) (g : X → Mesh n1 n2 n3 → Matrix (Fin nb) (Fin nb) ℂ)
    (G : Option (X → Mesh n1 n2 n3 → Matrix (Fin nb) (Fin nb) ℂ)) (mu nu : X) :
    selfEnergy sym diag (fun k m n => w (e k n) (e (k + j) m)) (fun _ _ => 0) (coupling U j g) (G.map (coupling U j)) mu nu =
      if diag ∧ mu ≠ nu then 0 else 2 / ((n1 * n2 * n3 : Nat) : ℂ) * ∑ k, match G with
        | none => sum2 w (e k) (e (k + j)) (U k) (U (k + j)) (g mu k)ᴴ (g nu k)
        | some G => if sym then (sum2 w (e k) (e (k + j)) (U k) (U (k + j)) (g mu k)ᴴ (G nu k) +
            sum2 w (e k) (e (k + j)) (U k) (U (k + j)) (G mu k)ᴴ (g nu k)) / 2
          else sum2 w (e k) (e (k + j)) (U k) (U (k + j)) (g mu k)ᴴ (G nu k) := by
  unfold selfEnergy contact piK
  simp only [Complex.ofReal_zero, zero_div, mul_zero, zero_mul, Finset.sum_const_zero, add_zero]
  split
  · simp only [Finset.sum_const_zero, mul_zero]
  · congr 1
    refine Finset.sum_congr rfl fun k _ => ?_
    cases G with
    | none => exact pair_sum w j k e U (g mu k) (g nu k)
    | some G =>
      cases sym with
      | false =>
        simp only [Option.map_some, Bool.false_eq_true, if_false]
        exact pair_sum w j k e U (g mu k) (G nu k)
      | true =>
        simp only [Option.map_some, if_true]
        rw [← pair_sum w j k e U (g mu k) (G nu k), ← pair_sum w j k e U (G mu k) (g nu k), ← Finset.sum_add_distrib, Finset.sum_div]
        refine Finset.sum_congr rfl fun m _ => ?_
        rw [← Finset.sum_add_distrib, Finset.sum_div]
        refine Finset.sum_congr rfl fun n _ => ?_
        unfold coupling
        ring

include h h' in
theorem selfEnergy_gauge (sym diag : Bool) (w : ℝ → ℝ → ℂ) (j : Mesh n1 n2 n3) (g : X → Mesh n1 n2 n3 → Matrix (Fin nb) (Fin nb) ℂ)
    (G : Option (X → Mesh n1 n2 n3 → Matrix (Fin nb) (Fin nb) ℂ)) (mu nu : X) :
    selfEnergy sym diag (fun k m n => w (e' k n) (e' (k + j) m)) (fun _ _ => 0) (coupling U' j g) (G.map (coupling U' j)) mu nu =
    selfEnergy sym diag (fun k m n => w (e k n) (e (k + j) m)) (fun _ _ => 0) (coupling U j g) (G.map (coupling U j)) mu nu := by
  rw [selfEnergy_pairs, selfEnergy_pairs]
  have key : ∀ k (A B : Matrix (Fin nb) (Fin nb) ℂ), sum2 w (e' k) (e' (k + j)) (U' k) (U' (k + j)) A B =
      sum2 w (e k) (e (k + j)) (U k) (U (k + j)) A B := fun k A B => sum2_gauge w (h k) (h' k) (h (k + j)) (h' (k + j)) A B
  simp only [key]

include h h' in
/-- C153: the phonon self-energy does not depend on the choice of eigenvectors, for all options without the contact interaction
(screened couplings, symmetrization, excluded energy window, any `eps`). -/
theorem C153_self_energy (eps kT : ℝ) (occ delta : ℝ → ℝ) (win : Option Window) (sym diag : Bool) (q : Fin 3 → ℝ) (j : Mesh n1 n2 n3)
    (hq : OnMesh q j) (g : X → Mesh n1 n2 n3 → Matrix (Fin nb) (Fin nb) ℂ)
    (G : Option (X → Mesh n1 n2 n3 → Matrix (Fin nb) (Fin nb) ℂ)) (mu nu : X) :
    selfEnergy sym diag (fun k m n => (weights eps kT occ delta win e' q k m n : ℂ)) (fun _ _ => 0) (coupling U' j g)
        (G.map (coupling U' j)) mu nu =
      selfEnergy sym diag (fun k m n => (weights eps kT occ delta win e q k m n : ℂ)) (fun _ _ => 0) (coupling U j g)
        (G.map (coupling U j)) mu nu := by
  simp only [weights_fn _ _ _ _ _ _ q j hq]
  exact selfEnergy_gauge h h' sym diag (fun x y => ((staticFn eps kT occ delta x y * envelopeFn win x y : ℝ) : ℂ)) j g G mu nu

include h h' in
/-- C153: the same for finite frequencies. -/
theorem C153_dynamic (omega : ℂ) (kT : ℝ) (occ : ℝ → ℝ) (sym diag : Bool) (q : Fin 3 → ℝ) (j : Mesh n1 n2 n3)
    (hq : OnMesh q j) (g : X → Mesh n1 n2 n3 → Matrix (Fin nb) (Fin nb) ℂ)
    (G : Option (X → Mesh n1 n2 n3 → Matrix (Fin nb) (Fin nb) ℂ)) (mu nu : X) :
    selfEnergy sym diag (dfdeOmega omega e' (fun k n => occ (e' k n / kT)) (qIndices n1 n2 n3 q)) (fun _ _ => 0) (coupling U' j g)
        (G.map (coupling U' j)) mu nu =
      selfEnergy sym diag (dfdeOmega omega e (fun k n => occ (e k n / kT)) (qIndices n1 n2 n3 q)) (fun _ _ => 0) (coupling U j g)
        (G.map (coupling U j)) mu nu := by
  have key : ∀ e : Mesh n1 n2 n3 → Fin nb → ℝ, dfdeOmega omega e (fun k n => occ (e k n / kT)) (qIndices n1 n2 n3 q) =
      fun k m n => dynamicFn omega kT occ (e k n) (e (k + j) m) := by
    intro e
    funext k m n
    unfold dfdeOmega dynamicFn
    simp only [slice_q _ q j _ hq]
  rw [key, key]
  exact selfEnergy_gauge h h' sym diag (dynamicFn omega kT occ) j g G mu nu

include h h' in
/-- C153: the polarization in the basis of orbitals does not depend on the choice of eigenvectors. -/
theorem C153_polarization (eps kT : ℝ) (occ delta : ℝ → ℝ) (q : Fin 3 → ℝ) (j : Mesh n1 n2 n3) (hq : OnMesh q j) (a b : Fin nb) :
    polarization eps kT occ delta e' (fun k a n => U' k a n) none q a b = polarization eps kT occ delta e (fun k a n => U k a n) none q a b := by
  have key : ∀ (e : Mesh n1 n2 n3 → Fin nb → ℝ) (U : Mesh n1 n2 n3 → Matrix (Fin nb) (Fin nb) ℂ),
      polarization eps kT occ delta e (fun k a n => U k a n) none q a b = 2 / ((n1 * n2 * n3 : Nat) : ℂ) * ∑ k,
        sum2 (fun x y => (staticFn eps kT occ delta x y : ℂ)) (e k) (e (k + j)) (U k) (U (k + j)) (Matrix.single a a 1)
          (Matrix.single b b 1) := by
    intro e U
    unfold polarization
    simp only [dfde_fn eps kT occ delta e q j hq, slice_q _ q j _ hq]
    congr 1
    have hs : ∀ (A B : Matrix (Fin nb) (Fin nb) ℂ) (c m n : Fin nb), mix A (Matrix.single c c 1) B m n = star (A c m) * B c n := by
      intro A B c m n
      unfold mix
      rw [Matrix.mul_assoc, Matrix.mul_apply, Finset.sum_eq_single c]
      · rw [conjTranspose_apply, Matrix.mul_apply, Finset.sum_eq_single c]
        · simp
        · intro d _ hd
          rw [Matrix.single_apply_of_ne _ _ _ _ _ (fun hh => hd hh.2.symm), zero_mul]
        · intro hc
          exact absurd (Finset.mem_univ c) hc
      · intro d _ hd
        rw [Matrix.mul_apply, Finset.sum_eq_zero, mul_zero]
        intro i _
        rw [Matrix.single_apply_of_ne _ _ _ _ _ (fun hh => hd hh.1.symm), zero_mul]
      · intro hc
        exact absurd (Finset.mem_univ c) hc
    have e1 : ∀ f : Fin nb → Fin nb → Mesh n1 n2 n3 → ℂ, ∑ m, ∑ n, ∑ k, f m n k = ∑ k, ∑ n, ∑ m, f m n k := by
      intro f
      rw [Finset.sum_comm]
      rw [Finset.sum_congr rfl fun n _ => Finset.sum_comm (f := fun m k => f m n k)]
      exact Finset.sum_comm
    rw [e1]
    refine Finset.sum_congr rfl fun k _ => ?_
    unfold sum2
    refine Finset.sum_congr rfl fun n _ => Finset.sum_congr rfl fun m _ => ?_
    rw [hs, hs, star_mul', star_star]
    ring
  rw [key, key]
  congr 1
  exact Finset.sum_congr rfl fun k _ => sum2_gauge _ (h k) (h' k) (h (k + j)) (h' (k + j)) _ _

include h h' in
/-- C153: the triangle does not depend on the choice of eigenvectors, for any `eps`. -/
theorem C153_triangle (eps kT : ℝ) (occ delta deltaPrime : ℝ → ℝ) (q Q : Fin 3 → ℝ) (j J i : Mesh n1 n2 n3) (hq : OnMesh q j)
    (hQ : OnMesh Q J) (hi : i + J = j) (gq gQ gqQ : Mesh n1 n2 n3 → Matrix (Fin nb) (Fin nb) ℂ) :
    triangle eps kT occ delta deltaPrime e' q Q (coupling U' j (fun _ : Unit => gq) ()) (coupling U' J (fun _ : Unit => gQ) ())
        (coupling U' i (fun _ : Unit => gqQ) ()) =
      triangle eps kT occ delta deltaPrime e q Q (coupling U j (fun _ : Unit => gq) ()) (coupling U J (fun _ : Unit => gQ) ())
        (coupling U i (fun _ : Unit => gqQ) ()) := by
  have key : ∀ (e : Mesh n1 n2 n3 → Fin nb → ℝ) (U : Mesh n1 n2 n3 → Matrix (Fin nb) (Fin nb) ℂ),
      triangle eps kT occ delta deltaPrime e q Q (coupling U j (fun _ : Unit => gq) ()) (coupling U J (fun _ : Unit => gQ) ())
        (coupling U i (fun _ : Unit => gqQ) ()) = 4 / ((n1 * n2 * n3 : Nat) : ℂ) * ∑ k,
        sum3 (fun x y z => (triangleFactor eps kT occ delta deltaPrime x y z : ℂ)) (e k) (e (k + j)) (e (k + J)) (U k) (U (k + j))
          (U (k + J)) (gq k)ᴴ (gqQ (k + J)) (gQ k) := by
    intro e U
    unfold triangle
    simp only [slice_q _ q j _ hq, slice_q _ Q J _ hQ]
    congr 1
    refine Finset.sum_congr rfl fun k _ => ?_
    unfold sum3 coupling
    refine Finset.sum_congr rfl fun a _ => Finset.sum_congr rfl fun b _ => Finset.sum_congr rfl fun c _ => ?_
    rw [star_mix, show k + J + i = k + j by rw [add_assoc, add_comm J i, hi]]
    ring
  rw [key, key]
  congr 1
  exact Finset.sum_congr rfl fun k _ => sum3_gauge _ (h k) (h' k) (h (k + j)) (h' (k + j)) (h (k + J)) (h' (k + J)) _ _ _

include h h' in
/-- C153: neither do the diagram of first order, ... -/
theorem C153_first (kT : ℝ) (occ : ℝ → ℝ) (W : Mesh n1 n2 n3 → Matrix (Fin nb) (Fin nb) ℂ) :
    (firstOrder kT occ e' fun k => mix (U' k) (W k) (U' k)) = firstOrder kT occ e fun k => mix (U k) (W k) (U k) := by
  rw [firstOrder_sum, firstOrder_sum]
  congr 1
  exact Finset.sum_congr rfl fun k _ => sum1_gauge _ (h k) (h' k) _

include h h' in
/-- C153: ... the correction for a fixed number of electrons, ... -/
theorem C153_fermi_shift (kT : ℝ) (delta : ℝ → ℝ) (W : X → Mesh n1 n2 n3 → Matrix (Fin nb) (Fin nb) ℂ) (x y : X) :
    fermiShift kT delta e' (fun x k => mix (U' k) (W x k) (U' k)) x y = fermiShift kT delta e (fun x k => mix (U k) (W x k) (U k)) x y := by
  have h1 : ∀ x, ∑ k, ∑ n, ((delta (e' k n / kT) / kT : ℝ) : ℂ) * mix (U' k) (W x k) (U' k) n n =
      ∑ k, ∑ n, ((delta (e k n / kT) / kT : ℝ) : ℂ) * mix (U k) (W x k) (U k) n n := fun x =>
    Finset.sum_congr rfl fun k _ => sum1_gauge (fun x => ((delta (x / kT) / kT : ℝ) : ℂ)) (h k) (h' k) (W x k)
  have h2 : ((∑ k, ∑ n, delta (e' k n / kT) / kT : ℝ) : ℂ) = ((∑ k, ∑ n, delta (e k n / kT) / kT : ℝ) : ℂ) := by
    push_cast
    refine Finset.sum_congr rfl fun k _ => ?_
    have h3 := sum1_gauge (fun x => ((delta (x / kT) / kT : ℝ) : ℂ)) (h k) (h' k) 1
    unfold sum1 mix at h3
    simp only [Matrix.mul_one, (h k).unitary, (h' k).unitary, Matrix.one_apply_eq, mul_one] at h3
    push_cast at h3
    exact h3
  unfold fermiShift
  simp only [h1, h2]

include h h' in
/-- C153: ... and the averages over the Fermi surface. -/
theorem C153_fermi_average (kT : ℝ) (delta : ℝ → ℝ) (q : Fin 3 → ℝ) (j : Mesh n1 n2 n3) (hq : OnMesh q j)
    (g : X → Mesh n1 n2 n3 → Matrix (Fin nb) (Fin nb) ℂ) (nu : X) :
    fsEnum kT delta e' (fun x k m n => ‖coupling U' j g x k m n‖ ^ 2) q nu =
      fsEnum kT delta e (fun x k m n => ‖coupling U j g x k m n‖ ^ 2) q nu ∧
    fsDeno kT delta e' q = fsDeno kT delta e q := by
  have hn : ∀ z : ℂ, ((‖z‖ ^ 2 : ℝ) : ℂ) = star z * z := by
    intro z
    push_cast
    exact (Complex.conj_mul' z).symm
  constructor
  · have key : ∀ (e : Mesh n1 n2 n3 → Fin nb → ℝ) (U : Mesh n1 n2 n3 → Matrix (Fin nb) (Fin nb) ℂ),
        ((fsEnum kT delta e (fun x k m n => ‖coupling U j g x k m n‖ ^ 2) q nu : ℝ) : ℂ) = ∑ k,
          sum2 (fun x y => ((delta (y / kT) / kT * (delta (x / kT) / kT) : ℝ) : ℂ)) (e k) (e (k + j)) (U k) (U (k + j)) (g nu k)ᴴ (g nu k) := by
      intro e U
      unfold fsEnum
      simp only [slice_q _ q j _ hq, Complex.ofReal_sum, Complex.ofReal_mul _ (_ * _), hn]
      refine Finset.sum_congr rfl fun k _ => ?_
      exact pair_sum (fun x y => ((delta (y / kT) / kT * (delta (x / kT) / kT) : ℝ) : ℂ)) j k e U (g nu k) (g nu k)
    rw [← Complex.ofReal_inj, key, key]
    exact Finset.sum_congr rfl fun k _ => sum2_gauge _ (h k) (h' k) (h (k + j)) (h' (k + j)) _ _
  · have h2 : ∀ k, ∑ n, delta (e' k n / kT) / kT = ∑ n, delta (e k n / kT) / kT := by
      intro k
      rw [← Complex.ofReal_inj]
      push_cast
      have h3 := sum1_gauge (fun x => ((delta (x / kT) / kT : ℝ) : ℂ)) (h k) (h' k) 1
      unfold sum1 mix at h3
      simp only [Matrix.mul_one, (h k).unitary, (h' k).unitary, Matrix.one_apply_eq, mul_one] at h3
      push_cast at h3
      exact h3
    unfold fsDeno
    simp only [slice_q _ q j _ hq, ← Finset.mul_sum, ← Finset.sum_mul, h2]

include h h' in
/-- C153: the phonon self-energy from squared couplings does not depend on the choice of eigenvectors either. -/
theorem C153_squared (eps kT : ℝ) (occ delta : ℝ → ℝ) (win : Option Window) (q : Fin 3 → ℝ) (j : Mesh n1 n2 n3)
    (hq : OnMesh q j) (g : X → Mesh n1 n2 n3 → Matrix (Fin nb) (Fin nb) ℂ) (nu : X) :
    selfEnergy2 (fun k m n => (weights eps kT occ delta win e' q k m n : ℂ))
        (fun x k m n => ((‖coupling U' j g x k m n‖ ^ 2 : ℝ) : ℂ)) nu =
      selfEnergy2 (fun k m n => (weights eps kT occ delta win e q k m n : ℂ))
        (fun x k m n => ((‖coupling U j g x k m n‖ ^ 2 : ℝ) : ℂ)) nu := by
  have hn : ∀ z : ℂ, ((‖z‖ ^ 2 : ℝ) : ℂ) = star z * z := by
    intro z
    push_cast
    exact (Complex.conj_mul' z).symm
  have key : ∀ (e : Mesh n1 n2 n3 → Fin nb → ℝ) (U : Mesh n1 n2 n3 → Matrix (Fin nb) (Fin nb) ℂ),
      selfEnergy2 (fun k m n => (weights eps kT occ delta win e q k m n : ℂ))
        (fun x k m n => ((‖coupling U j g x k m n‖ ^ 2 : ℝ) : ℂ)) nu = 2 / ((n1 * n2 * n3 : Nat) : ℂ) * ∑ k,
        sum2 (fun x y => ((staticFn eps kT occ delta x y * envelopeFn win x y : ℝ) : ℂ)) (e k) (e (k + j)) (U k) (U (k + j))
          (g nu k)ᴴ (g nu k) := by
    intro e U
    unfold selfEnergy2
    simp only [hn, weights_fn _ _ _ _ _ _ q j hq]
    congr 1
    refine Finset.sum_congr rfl fun k _ => ?_
    exact pair_sum (fun x y => ((staticFn eps kT occ delta x y * envelopeFn win x y : ℝ) : ℂ)) j k e U (g nu k) (g nu k)
  rw [key, key]
  congr 1
  exact Finset.sum_congr rfl fun k _ => sum2_gauge _ (h k) (h' k) (h (k + j)) (h' (k + j)) _ _

end

/-- C153 is violated by the contact interaction: already for one band and two k points, the result depends on the phases of
eigenvectors, which are arbitrary. -/
theorem C153_contact_violated (kT : ℝ) (hkT : 0 < kT) (occ delta : ℝ → ℝ) (hd : 0 < delta 0) :
    ∃ (e : Mesh 2 1 1 → Fin 1 → ℝ) (H U U' : Mesh 2 1 1 → Matrix (Fin 1) (Fin 1) ℂ) (q : Fin 3 → ℝ) (j : Mesh 2 1 1)
      (g : Unit → Mesh 2 1 1 → Matrix (Fin 1) (Fin 1) ℂ), OnMesh q j ∧ (∀ k, Diagonalizes (H k) (e k) (U k)) ∧
      (∀ k, Diagonalizes (H k) (e k) (U' k)) ∧
      selfEnergy true false (fun k m n => (weights 0 kT occ delta none e q k m n : ℂ)) (fun _ _ => 1) (coupling U' j g) none () () ≠
        selfEnergy true false (fun k m n => (weights 0 kT occ delta none e q k m n : ℂ)) (fun _ _ => 1) (coupling U j g) none () () := by
  have hq : OnMesh (fun i => if i = 0 then Real.pi else 0) ((1, 0, 0) : Mesh 2 1 1) := by
    refine ⟨fun _ => 0, ?_, ?_, ?_⟩
    · simp
      ring
    · simp
    · simp
  refine ⟨fun _ _ => 0, fun _ => 0, fun _ => 1, fun k => if k.1 = 0 then 1 else Complex.I • 1, fun i => if i = 0 then Real.pi else 0,
    (1, 0, 0), fun _ _ => 1, hq, ?_, ?_, ?_⟩
  · intro k
    constructor <;> simp
  · intro k
    constructor
    · ext a b
      simp
    · dsimp only
      split
      · simp
      · rw [conjTranspose_smul, conjTranspose_one, Matrix.smul_mul, Matrix.one_mul, smul_smul]
        simp
  · have hw : ∀ k m n, weights 0 kT occ delta none (fun (_ : Mesh 2 1 1) (_ : Fin 1) => (0 : ℝ)) (fun i => if i = 0 then Real.pi else 0) k m n =
        -(delta 0 / kT) := by
      intro k m n
      rw [weights_fn 0 kT occ delta none _ _ (1, 0, 0) hq]
      unfold staticFn envelopeFn
      simp
      ring
    have hk : ∀ f : Mesh 2 1 1 → ℂ, ∑ k, f k = f (0, 0, 0) + f (1, 0, 0) := by
      intro f
      rw [Fintype.sum_prod_type, Fin.sum_univ_two, Fintype.sum_prod_type, Fintype.sum_prod_type]
      simp
    have hx : 0 < delta 0 / kT := div_pos hd hkT
    unfold selfEnergy contact piK
    simp only [hw, hk, coupling, mix, Fin.sum_univ_one, Option.getD_none]
    have a0 : ((0, 0, 0) : Mesh 2 1 1) + (1, 0, 0) = (1, 0, 0) := rfl
    have a1 : ((1, 0, 0) : Mesh 2 1 1) + (1, 0, 0) = (0, 0, 0) := rfl
    simp only [a0, a1]
    set x := delta 0 / kT with hxd
    have hne : (1 + 2 * (x : ℂ)) ≠ 0 := by
      have : ((1 + 2 * x : ℝ) : ℂ) ≠ 0 := Complex.ofReal_ne_zero.2 (by positivity)
      push_cast at this
      exact this
    have hxc : (x : ℂ) ≠ 0 := Complex.ofReal_ne_zero.2 hx.ne'
    simp
    exact ⟨⟨hx.ne', fun h => hne (by linear_combination h)⟩, hx.ne'⟩

/-- Hypotheses of the above theorems: degenerate bands, arbitrary phases and rotations. -/
example (a b : Mesh 2 2 1 → ℝ) : ∃ (H U U' : Mesh 2 2 1 → Matrix (Fin 2) (Fin 2) ℂ) (e e' : Mesh 2 2 1 → Fin 2 → ℝ),
    (∀ k, Diagonalizes (H k) (e k) (U k)) ∧ (∀ k, Diagonalizes (H k) (e' k) (U' k)) ∧
    ∀ k, U k = 1 ∧ U' k = (Complex.exp (b k * Complex.I)) •
      !![(Real.cos (a k) : ℂ), -(Real.sin (a k) : ℂ); (Real.sin (a k) : ℂ), (Real.cos (a k) : ℂ)] := by
  refine ⟨fun _ => 1, fun _ => 1, fun k => (Complex.exp (b k * Complex.I)) •
      !![(Real.cos (a k) : ℂ), -(Real.sin (a k) : ℂ); (Real.sin (a k) : ℂ), (Real.cos (a k) : ℂ)], fun _ _ => 1, fun _ _ => 1, ?_, ?_,
    fun k => ⟨rfl, rfl⟩⟩
  · intro k
    constructor <;> simp
  · intro k
    constructor
    · simp
    · have h := Real.cos_sq_add_sin_sq (a k)
      have h' : ((Real.cos (a k) : ℝ) : ℂ) ^ 2 + ((Real.sin (a k) : ℝ) : ℂ) ^ 2 = 1 := by
        rw [← Complex.ofReal_pow, ← Complex.ofReal_pow, ← Complex.ofReal_add, h, Complex.ofReal_one]
      have hc : star ((Real.cos (a k) : ℝ) : ℂ) = ((Real.cos (a k) : ℝ) : ℂ) := Complex.conj_ofReal _
      have hs : star ((Real.sin (a k) : ℝ) : ℂ) = ((Real.sin (a k) : ℝ) : ℂ) := Complex.conj_ofReal _
      have hp : star (Complex.exp (b k * Complex.I)) * Complex.exp (b k * Complex.I) = 1 := by
        have h1 := Complex.conj_mul' (Complex.exp (b k * Complex.I))
        rw [Complex.norm_exp_ofReal_mul_I] at h1
        refine h1.trans ?_
        norm_num
      rw [conjTranspose_smul, Matrix.smul_mul, Matrix.mul_smul, smul_smul, hp, one_smul]
      generalize ((Real.cos (a k) : ℝ) : ℂ) = C at *
      generalize ((Real.sin (a k) : ℝ) : ℂ) = S at *
      ext a b
      rw [Matrix.mul_apply, Fin.sum_univ_two, conjTranspose_apply, conjTranspose_apply]
      fin_cases a <;> fin_cases b <;>
      simp only [Fin.zero_eta, Fin.mk_one, Matrix.of_apply, Matrix.cons_val_zero, Matrix.cons_val_one, Matrix.cons_val_fin_one,
        Matrix.one_apply_eq, star_neg, hc, hs, ne_eq, Fin.isValue, zero_ne_one, one_ne_zero, not_false_eq_true, Matrix.one_apply_ne]
      · linear_combination h'
      · ring
      · ring
      · linear_combination h'

end Verif.Diag.Derivatives
