import Verif.Diag.Gauge
import Mathlib.LinearAlgebra.Matrix.Charpoly.Basic

/-!
# Property C176: diagrams respect the symmetries of the crystal
-/

namespace Verif.Diag.Symm

open Matrix Verif.Diag Verif.Diag.Derivatives

variable {n1 n2 n3 nb : Nat} [NeZero n1] [NeZero n2] [NeZero n3] {X : Type} [DecidableEq X] [Fintype X]

/-! ### Specification -/

/-- A linear map `R` of the wave vectors and unitary matrices `V` map the Hamiltonian `H` to the Hamiltonian `H'`; symmetry if both are the
same, antiunitary symmetry such as time reversal if one is the complex conjugate of the other. -/
structure Operation (H H' : Mesh n1 n2 n3 → Matrix (Fin nb) (Fin nb) ℂ) where
  R : Mesh n1 n2 n3 ≃+ Mesh n1 n2 n3
  V : Mesh n1 n2 n3 → Matrix (Fin nb) (Fin nb) ℂ
  unitary : ∀ k, (V k)ᴴ * V k = 1
  ham : ∀ k, H' (R k) = V k * H k * (V k)ᴴ

/-- Couplings for wave vectors `j` and `R j` are related; `S` is the representation in the space of displacements. -/
def Operation.Related {H H' : Mesh n1 n2 n3 → Matrix (Fin nb) (Fin nb) ℂ} (o : Operation H H') (j : Mesh n1 n2 n3) (S : X → X → ℂ)
    (g g' : X → Mesh n1 n2 n3 → Matrix (Fin nb) (Fin nb) ℂ) : Prop :=
  ∀ x k, g' x (o.R k) = ∑ y, S x y • (o.V (k + j) * g y k * (o.V k)ᴴ)

/-- Complex conjugate. -/
def conj (A : Matrix (Fin nb) (Fin nb) ℂ) : Matrix (Fin nb) (Fin nb) ℂ := A.map star

/-! ### Proofs -/

section
variable {H H' : Mesh n1 n2 n3 → Matrix (Fin nb) (Fin nb) ℂ} (o : Operation H H') {e e' : Mesh n1 n2 n3 → Fin nb → ℝ}
  {U U' : Mesh n1 n2 n3 → Matrix (Fin nb) (Fin nb) ℂ} (h : ∀ k, Diagonalizes (H k) (e k) (U k))
  (h' : ∀ k, Diagonalizes (H' k) (e' k) (U' k))

include h in
theorem rotated (k : Mesh n1 n2 n3) : Diagonalizes (H' (o.R k)) (e k) (o.V k * U k) where
  eig := by
    rw [o.ham, Matrix.mul_assoc _ _ (o.V k * U k), ← Matrix.mul_assoc _ _ (U k), o.unitary, Matrix.one_mul, Matrix.mul_assoc, (h k).eig,
      ← Matrix.mul_assoc]
  unitary := by
    rw [conjTranspose_mul, Matrix.mul_assoc, ← Matrix.mul_assoc _ _ (U k), o.unitary, Matrix.one_mul, (h k).unitary]

theorem mix_rotated {Y : Type} [Fintype Y] (k l : Mesh n1 n2 n3) (a : Y → ℂ) (g : Y → Matrix (Fin nb) (Fin nb) ℂ) (A B : Matrix (Fin nb) (Fin nb) ℂ) (m n : Fin nb) :
    mix (o.V l * A) (∑ y, a y • (o.V l * g y * (o.V k)ᴴ)) (o.V k * B) m n = ∑ y, a y * mix A (g y) B m n := by
  unfold mix
  have e1 : (o.V l * A)ᴴ * (∑ y, a y • (o.V l * g y * (o.V k)ᴴ)) * (o.V k * B) = ∑ y, a y • (Aᴴ * g y * B) := by
    rw [Matrix.mul_sum, Matrix.sum_mul]
    refine Finset.sum_congr rfl fun y _ => ?_
    rw [Matrix.mul_smul, Matrix.smul_mul]
    congr 1
    rw [conjTranspose_mul]
    calc Aᴴ * (o.V l)ᴴ * (o.V l * g y * (o.V k)ᴴ) * (o.V k * B)
        = Aᴴ * ((o.V l)ᴴ * o.V l) * g y * ((o.V k)ᴴ * o.V k) * B := by simp only [Matrix.mul_assoc]
      _ = Aᴴ * g y * B := by rw [o.unitary, o.unitary, Matrix.mul_one, Matrix.mul_one]
  rw [e1, Matrix.sum_apply]
  simp only [Matrix.smul_apply, smul_eq_mul]

/-- Sum over pairs of states. -/
def pairs (w : ℝ → ℝ → ℂ) (j : Mesh n1 n2 n3) (e : Mesh n1 n2 n3 → Fin nb → ℝ) (U A B : Mesh n1 n2 n3 → Matrix (Fin nb) (Fin nb) ℂ) : ℂ :=
  ∑ k, sum2 w (e k) (e (k + j)) (U k) (U (k + j)) (A k)ᴴ (B k)

include h h' in
theorem pairs_rotated {Z Y : Type} [Fintype Z] [Fintype Y] (w : ℝ → ℝ → ℂ) (j : Mesh n1 n2 n3) (A : Z → Mesh n1 n2 n3 → Matrix (Fin nb) (Fin nb) ℂ)
    (B : Y → Mesh n1 n2 n3 → Matrix (Fin nb) (Fin nb) ℂ) (A' B' : Mesh n1 n2 n3 → Matrix (Fin nb) (Fin nb) ℂ) (a : Z → ℂ) (b : Y → ℂ)
    (hA : ∀ k, A' (o.R k) = ∑ y, a y • (o.V (k + j) * A y k * (o.V k)ᴴ))
    (hB : ∀ k, B' (o.R k) = ∑ y, b y • (o.V (k + j) * B y k * (o.V k)ᴴ)) :
    pairs w (o.R j) e' U' A' B' = ∑ x, ∑ y, star (a x) * b y * pairs w j e U (A x) (B y) := by
  unfold pairs
  rw [← Equiv.sum_comp o.R.toEquiv]
  have e1 : ∀ k, sum2 w (e' (o.R k)) (e' (o.R k + o.R j)) (U' (o.R k)) (U' (o.R k + o.R j)) (A' (o.R k))ᴴ (B' (o.R k)) =
      ∑ x, ∑ y, star (a x) * b y * sum2 w (e k) (e (k + j)) (U k) (U (k + j)) (A x k)ᴴ (B y k) := by
    intro k
    rw [← map_add, sum2_gauge w (rotated o h k) (h' _) (rotated o h (k + j)) (h' _)]
    unfold sum2
    have hf : ∀ (n m : Fin nb), mix (o.V k * U k) (A' (o.R k))ᴴ (o.V (k + j) * U (k + j)) n m =
        ∑ x, star (a x) * mix (U k) (A x k)ᴴ (U (k + j)) n m := by
      intro n m
      rw [← star_mix, hA, mix_rotated, star_sum]
      refine Finset.sum_congr rfl fun x _ => ?_
      rw [star_mul', star_mix]
    have hg : ∀ (n m : Fin nb), mix (o.V (k + j) * U (k + j)) (B' (o.R k)) (o.V k * U k) m n =
        ∑ y, b y * mix (U (k + j)) (B y k) (U k) m n := by
      intro n m
      rw [hB, mix_rotated]
    have e2 : ∀ n m, w (e k n) (e (k + j) m) * ((∑ x, star (a x) * mix (U k) (A x k)ᴴ (U (k + j)) n m) *
        ∑ y, b y * mix (U (k + j)) (B y k) (U k) m n) = ∑ x, ∑ y, star (a x) * b y *
        (w (e k n) (e (k + j) m) * (mix (U k) (A x k)ᴴ (U (k + j)) n m * mix (U (k + j)) (B y k) (U k) m n)) := by
      intro n m
      rw [Finset.sum_mul_sum, Finset.mul_sum]
      refine Finset.sum_congr rfl fun x _ => ?_
      rw [Finset.mul_sum]
      exact Finset.sum_congr rfl fun y _ => by ring
    simp only [hf, hg, e2]
    rw [Finset.sum_congr rfl fun n _ => Finset.sum_comm, Finset.sum_comm]
    refine Finset.sum_congr rfl fun x _ => ?_
    rw [Finset.sum_congr rfl fun n _ => Finset.sum_comm, Finset.sum_comm]
    refine Finset.sum_congr rfl fun y _ => ?_
    rw [Finset.mul_sum]
    refine Finset.sum_congr rfl fun n _ => ?_
    rw [Finset.mul_sum]
  refine (Finset.sum_congr rfl fun k _ => e1 k).trans ?_
  rw [Finset.sum_comm]
  refine Finset.sum_congr rfl fun x _ => ?_
  rw [Finset.sum_comm]
  refine Finset.sum_congr rfl fun y _ => ?_
  rw [Finset.mul_sum]

include h h' in
theorem selfEnergy_rotated (sym : Bool) (w : ℝ → ℝ → ℂ) (j : Mesh n1 n2 n3) (S : X → X → ℂ)
    (g g' : X → Mesh n1 n2 n3 → Matrix (Fin nb) (Fin nb) ℂ) (hg : o.Related j S g g')
    (G G' : X → Mesh n1 n2 n3 → Matrix (Fin nb) (Fin nb) ℂ) (hG : o.Related j S G G') (second : Bool) (mu nu : X) :
    selfEnergy sym false (fun k m n => w (e' k n) (e' (k + o.R j) m)) (fun _ _ => 0) (coupling U' (o.R j) g')
        ((if second then some G' else none).map (coupling U' (o.R j))) mu nu =
      ∑ x, ∑ y, star (S mu x) * S nu y * selfEnergy sym false (fun k m n => w (e k n) (e (k + j) m)) (fun _ _ => 0) (coupling U j g)
        ((if second then some G else none).map (coupling U j)) x y := by
  simp only [selfEnergy_pairs]
  have key : ∀ (A A' B B' : X → Mesh n1 n2 n3 → Matrix (Fin nb) (Fin nb) ℂ), o.Related j S A A' → o.Related j S B B' →
      pairs w (o.R j) e' U' (A' mu) (B' nu) = ∑ x, ∑ y, star (S mu x) * S nu y * pairs w j e U (A x) (B y) :=
    fun A A' B B' hA hB => pairs_rotated o h h' w j A B (A' mu) (B' nu) (S mu) (S nu) (hA mu) (hB nu)
  have pull : ∀ (c : ℂ) (f : X → X → ℂ), c * ∑ x, ∑ y, star (S mu x) * S nu y * f x y = ∑ x, ∑ y, star (S mu x) * S nu y * (c * f x y) := by
    intro c f
    rw [Finset.mul_sum]
    refine Finset.sum_congr rfl fun x _ => ?_
    rw [Finset.mul_sum]
    exact Finset.sum_congr rfl fun y _ => by ring
  simp only [Bool.false_eq_true, false_and, if_false]
  cases second with
  | false =>
    simp only [Bool.false_eq_true, if_false]
    exact (congrArg _ (key g g' g g' hg hg)).trans (pull _ _)
  | true =>
    simp only [if_true]
    cases sym with
    | false =>
      simp only [Bool.false_eq_true, if_false]
      exact (congrArg _ (key g g' G G' hg hG)).trans (pull _ _)
    | true =>
      simp only [if_true]
      have hs : ∀ (A B : Mesh n1 n2 n3 → ℂ), ∑ k, (A k + B k) / 2 = (1 / 2) * (∑ k, A k) + (1 / 2) * ∑ k, B k := by
        intro A B
        rw [← Finset.sum_div, Finset.sum_add_distrib]
        ring
      simp only [hs]
      have k1 := key g g' G G' hg hG
      have k2 := key G G' g g' hG hg
      unfold pairs at k1 k2
      rw [k1, k2, pull, pull, ← Finset.sum_add_distrib]
      simp only [← Finset.sum_add_distrib, ← mul_add]
      exact pull _ _

include h h' in
/-- **C176**: phonon self-energies at symmetry-related wave vectors are related by the representation in the space of displacements, for any
tolerance, smearing, and energy window. -/
theorem C176_self_energy (eps kT : ℝ) (occ delta : ℝ → ℝ) (win : Option Window) (sym : Bool) (q q' : Fin 3 → ℝ) (j : Mesh n1 n2 n3)
    (hq : OnMesh q j) (hq' : OnMesh q' (o.R j)) (S : X → X → ℂ) (g g' : X → Mesh n1 n2 n3 → Matrix (Fin nb) (Fin nb) ℂ)
    (hg : o.Related j S g g') (G G' : X → Mesh n1 n2 n3 → Matrix (Fin nb) (Fin nb) ℂ) (hG : o.Related j S G G') (second : Bool) (mu nu : X) :
    selfEnergy sym false (fun k m n => (weights eps kT occ delta win e' q' k m n : ℂ)) (fun _ _ => 0) (coupling U' (o.R j) g')
        ((if second then some G' else none).map (coupling U' (o.R j))) mu nu =
      ∑ x, ∑ y, star (S mu x) * S nu y * selfEnergy sym false (fun k m n => (weights eps kT occ delta win e q k m n : ℂ)) (fun _ _ => 0)
        (coupling U j g) ((if second then some G else none).map (coupling U j)) x y := by
  simp only [weights_fn eps kT occ delta win _ q j hq, weights_fn eps kT occ delta win _ q' (o.R j) hq']
  exact selfEnergy_rotated o h h' sym
    (fun x y => ((staticFn eps kT occ delta x y * envelopeFn win x y : ℝ) : ℂ)) j S g g' hg G G' hG second mu nu

theorem dynamic_fn (omega : ℂ) (kT : ℝ) (occ : ℝ → ℝ) (e : Mesh n1 n2 n3 → Fin nb → ℝ) (q : Fin 3 → ℝ) (j : Mesh n1 n2 n3) (hq : OnMesh q j) :
    dfdeOmega omega e (fun k n => occ (e k n / kT)) (qIndices n1 n2 n3 q) = fun k m n => dynamicFn omega kT occ (e k n) (e (k + j) m) := by
  funext k m n
  unfold dfdeOmega dynamicFn
  simp only [slice_q _ q j _ hq]

include h h' in
/-- **C176**: the same for any frequency. -/
theorem C176_dynamic (omega : ℂ) (kT : ℝ) (occ : ℝ → ℝ) (sym : Bool) (q q' : Fin 3 → ℝ) (j : Mesh n1 n2 n3)
    (hq : OnMesh q j) (hq' : OnMesh q' (o.R j)) (S : X → X → ℂ) (g g' : X → Mesh n1 n2 n3 → Matrix (Fin nb) (Fin nb) ℂ)
    (hg : o.Related j S g g') (G G' : X → Mesh n1 n2 n3 → Matrix (Fin nb) (Fin nb) ℂ) (hG : o.Related j S G G') (second : Bool) (mu nu : X) :
    selfEnergy sym false (dfdeOmega omega e' (fun k n => occ (e' k n / kT)) (qIndices n1 n2 n3 q')) (fun _ _ => 0) (coupling U' (o.R j) g')
        ((if second then some G' else none).map (coupling U' (o.R j))) mu nu =
      ∑ x, ∑ y, star (S mu x) * S nu y * selfEnergy sym false (dfdeOmega omega e (fun k n => occ (e k n / kT)) (qIndices n1 n2 n3 q))
        (fun _ _ => 0) (coupling U j g) ((if second then some G else none).map (coupling U j)) x y := by
  rw [dynamic_fn omega kT occ e q j hq, dynamic_fn omega kT occ e' q' (o.R j) hq']
  exact selfEnergy_rotated o h h' sym (dynamicFn omega kT occ) j S g g' hg G G' hG second mu nu

/-- **C176**: hence, renormalized phonon frequencies at symmetry-related wave vectors are the same. -/
theorem C176_frequencies (D D' P P' S : Matrix X X ℂ) (hS : Sᴴ * S = 1)
    (hD : ∀ x y, D' x y = ∑ x', ∑ y', star (S x x') * S y y' * D x' y') (hP : ∀ x y, P' x y = ∑ x', ∑ y', star (S x x') * S y y' * P x' y') :
    (D' + P').charpoly = (D + P).charpoly := by
  have hT : ∀ A A' : Matrix X X ℂ, (∀ x y, A' x y = ∑ x', ∑ y', star (S x x') * S y y' * A x' y') → A' = S.map star * A * Sᵀ := by
    intro A A' hA
    ext x y
    rw [hA, Matrix.mul_apply, Finset.sum_comm]
    refine Finset.sum_congr rfl fun y' _ => ?_
    rw [Matrix.mul_apply, Finset.sum_mul]
    refine Finset.sum_congr rfl fun x' _ => ?_
    rw [Matrix.map_apply, Matrix.transpose_apply]
    ring
  have hSS : Sᵀ * S.map star = 1 := by
    have := congrArg (fun M : Matrix X X ℂ => M.map star) hS
    have e1 : (Sᴴ * S).map star = Sᵀ * S.map star := by
      ext x y
      simp only [Matrix.map_apply, Matrix.mul_apply, star_sum, conjTranspose_apply, Matrix.transpose_apply]
      exact Finset.sum_congr rfl fun z _ => by rw [star_mul', star_star]
    rw [← e1, hS]
    ext x y
    by_cases hxy : x = y <;> simp [Matrix.one_apply, hxy]
  rw [hT D D' hD, hT P P' hP, ← Matrix.add_mul, ← Matrix.mul_add]
  let u : (Matrix X X ℂ)ˣ := ⟨S.map star, Sᵀ, mul_eq_one_comm.1 hSS, hSS⟩
  have hu := Matrix.charpoly_units_conj u (D + P)
  rw [Matrix.inv_eq_left_inv (show Sᵀ * (u : Matrix X X ℂ) = 1 from hSS)] at hu
  exact hu

/-! ### Averages over the Fermi surface -/

include h h' in
/-- **C176**: sums over all modes of double Fermi-surface averages are the same for symmetry-related wave vectors, whatever the basis of
modes, and so are densities of states. -/
theorem C176_fermi_average (kT : ℝ) (delta : ℝ → ℝ) (q q' : Fin 3 → ℝ) (j : Mesh n1 n2 n3) (hq : OnMesh q j) (hq' : OnMesh q' (o.R j))
    (S : Matrix X X ℂ) (hS : Sᴴ * S = 1) (g g' : X → Mesh n1 n2 n3 → Matrix (Fin nb) (Fin nb) ℂ) (hg : o.Related j S g g') :
    ∑ x, fsEnum kT delta e' (fun x k m n => ‖coupling U' (o.R j) g' x k m n‖ ^ 2) q' x =
      ∑ x, fsEnum kT delta e (fun x k m n => ‖coupling U j g x k m n‖ ^ 2) q x ∧
    fsDeno kT delta e' q' = fsDeno kT delta e q := by
  have hn : ∀ z : ℂ, ((‖z‖ ^ 2 : ℝ) : ℂ) = star z * z := by
    intro z
    push_cast
    exact (Complex.conj_mul' z).symm
  set w : ℝ → ℝ → ℂ := fun x y => ((delta (y / kT) / kT * (delta (x / kT) / kT) : ℝ) : ℂ) with hw
  constructor
  · have key : ∀ (q : Fin 3 → ℝ) (j : Mesh n1 n2 n3) (_ : OnMesh q j) (e : Mesh n1 n2 n3 → Fin nb → ℝ)
        (U : Mesh n1 n2 n3 → Matrix (Fin nb) (Fin nb) ℂ) (g : X → Mesh n1 n2 n3 → Matrix (Fin nb) (Fin nb) ℂ) (x : X),
        ((fsEnum kT delta e (fun x k m n => ‖coupling U j g x k m n‖ ^ 2) q x : ℝ) : ℂ) = pairs w j e U (g x) (g x) := by
      intro q j hq e U g x
      unfold fsEnum pairs
      simp only [slice_q _ q j _ hq, Complex.ofReal_sum, Complex.ofReal_mul _ (_ * _), hn]
      exact Finset.sum_congr rfl fun k _ => pair_sum w j k e U (g x k) (g x k)
    rw [← Complex.ofReal_inj, Complex.ofReal_sum, Complex.ofReal_sum]
    simp only [key q j hq, key q' (o.R j) hq']
    have e1 : ∀ z, pairs w (o.R j) e' U' (g' z) (g' z) = ∑ x, ∑ y, star (S z x) * S z y * pairs w j e U (g x) (g y) :=
      fun z => pairs_rotated o h h' w j g g (g' z) (g' z) (S z) (S z) (hg z) (hg z)
    simp only [e1]
    have e2 : ∀ x y, ∑ z, star (S z x) * S z y = if x = y then 1 else 0 := by
      intro x y
      have := congrFun (congrFun hS x) y
      rw [Matrix.mul_apply, Matrix.one_apply] at this
      simpa only [conjTranspose_apply] using this
    rw [Finset.sum_comm]
    refine Finset.sum_congr rfl fun x _ => ?_
    rw [Finset.sum_comm]
    simp only [← Finset.sum_mul, e2]
    simp
  · have h2 : ∀ k, ∑ n, delta (e' (o.R k) n / kT) / kT = ∑ n, delta (e k n / kT) / kT := by
      intro k
      rw [← Complex.ofReal_inj]
      push_cast
      have h3 := sum1_gauge (fun x => ((delta (x / kT) / kT : ℝ) : ℂ)) (rotated o h k) (h' (o.R k)) 1
      unfold sum1 mix at h3
      simp only [Matrix.mul_one, (rotated o h k).unitary, (h' _).unitary, Matrix.one_apply_eq, mul_one] at h3
      push_cast at h3
      exact h3
    unfold fsDeno
    simp only [slice_q _ q j _ hq, slice_q _ q' _ _ hq', ← Finset.mul_sum, ← Finset.sum_mul]
    rw [← Equiv.sum_comp o.R.toEquiv]
    refine Finset.sum_congr rfl fun k _ => ?_
    show (∑ m, delta (e' (o.R k + o.R j) m / kT) / kT) * (∑ n, delta (e' (o.R k) n / kT) / kT) = _
    rw [← map_add, h2, h2]

/-! ### Polarization -/

include h h' in
/-- **C176**: if the operation maps orbitals to orbitals, up to phases that are functions of the wave vector, the polarizations at
symmetry-related wave vectors are the same up to these phases. -/
theorem C176_polarization (eps kT : ℝ) (occ delta : ℝ → ℝ) (q q' : Fin 3 → ℝ) (j : Mesh n1 n2 n3) (hq : OnMesh q j) (hq' : OnMesh q' (o.R j))
    (σ : Equiv.Perm (Fin nb)) (φ : Fin nb → Mesh n1 n2 n3 → ℂ) (hV : ∀ k a b, o.V k a b = if a = σ b then φ b k else 0)
    (c : Fin nb → ℂ) (hφ : ∀ a k, φ a (k + j) = c a * φ a k) (a b : Fin nb) :
    polarization eps kT occ delta e' (fun k a n => U' k a n) none q' (σ a) (σ b) =
      c a * star (c b) * polarization eps kT occ delta e (fun k a n => U k a n) none q a b := by
  have hnorm : ∀ a k, star (φ a k) * φ a k = 1 := by
    intro a k
    have := congrFun (congrFun (o.unitary k) a) a
    rw [Matrix.mul_apply, Matrix.one_apply_eq, Finset.sum_eq_single (σ a)] at this
    · rw [conjTranspose_apply, hV, if_pos rfl] at this
      exact this
    · intro d _ hd
      rw [hV, if_neg hd, mul_zero]
    · intro hc
      exact absurd (Finset.mem_univ _) hc
  have hc : ∀ a, star (c a) * c a = 1 := by
    intro a
    have h1 := hnorm a (0 + j)
    have h2 := hnorm a 0
    rw [hφ, star_mul'] at h1
    calc star (c a) * c a = star (c a) * c a * (star (φ a 0) * φ a 0) := by rw [h2, mul_one]
      _ = star (c a) * star (φ a 0) * (c a * φ a 0) := by ring
      _ = 1 := h1
  have hs : ∀ (A B : Matrix (Fin nb) (Fin nb) ℂ) (c m n : Fin nb), mix A (Matrix.single c c 1) B m n = star (A c m) * B c n := by
    intro A B c m n
    unfold mix
    rw [Matrix.mul_assoc, Matrix.mul_apply, Finset.sum_eq_single c]
    · rw [conjTranspose_apply, Matrix.mul_apply, Finset.sum_eq_single c]
      · simp
      · intro d _ hd
        rw [Matrix.single_apply_of_ne _ _ _ _ _ (fun hh => hd hh.2.symm), zero_mul]
      · intro hc
        exact absurd (Finset.mem_univ c) hc
    · intro d _ hd
      rw [Matrix.mul_apply, Finset.sum_eq_zero, mul_zero]
      intro i _
      rw [Matrix.single_apply_of_ne _ _ _ _ _ (fun hh => hd hh.1.symm), zero_mul]
    · intro hc
      exact absurd (Finset.mem_univ c) hc
  have key : ∀ (q : Fin 3 → ℝ) (j : Mesh n1 n2 n3) (_ : OnMesh q j) (e : Mesh n1 n2 n3 → Fin nb → ℝ)
      (U : Mesh n1 n2 n3 → Matrix (Fin nb) (Fin nb) ℂ) (a b : Fin nb),
      polarization eps kT occ delta e (fun k a n => U k a n) none q a b = 2 / ((n1 * n2 * n3 : Nat) : ℂ) *
        pairs (fun x y => (staticFn eps kT occ delta x y : ℂ)) j e U (fun _ => Matrix.single a a 1) (fun _ => Matrix.single b b 1) := by
    intro q j hq e U a b
    unfold polarization pairs
    simp only [dfde_fn eps kT occ delta e q j hq, slice_q _ q j _ hq]
    congr 1
    have e1 : ∀ f : Fin nb → Fin nb → Mesh n1 n2 n3 → ℂ, ∑ m, ∑ n, ∑ k, f m n k = ∑ k, ∑ n, ∑ m, f m n k := by
      intro f
      rw [Finset.sum_comm]
      rw [Finset.sum_congr rfl fun n _ => Finset.sum_comm (f := fun m k => f m n k)]
      exact Finset.sum_comm
    rw [e1]
    refine Finset.sum_congr rfl fun k _ => ?_
    unfold sum2
    refine Finset.sum_congr rfl fun n _ => Finset.sum_congr rfl fun m _ => ?_
    rw [← star_mix, hs, hs, star_mul', star_star]
    ring
  have hrel : ∀ a k, (Matrix.single (σ a) (σ a) 1 : Matrix (Fin nb) (Fin nb) ℂ) =
      ∑ _y : Unit, star (c a) • (o.V (k + j) * Matrix.single a a 1 * (o.V k)ᴴ) := by
    intro a k
    rw [Fintype.sum_unique]
    ext m n
    rw [Matrix.smul_apply, smul_eq_mul]
    have e1 : (o.V (k + j) * (Matrix.single a a 1 : Matrix (Fin nb) (Fin nb) ℂ) * (o.V k)ᴴ) m n = o.V (k + j) m a * star (o.V k n a) := by
      have := hs (o.V (k + j))ᴴ (o.V k)ᴴ a m n
      unfold mix at this
      rw [conjTranspose_conjTranspose] at this
      rw [this, conjTranspose_apply, conjTranspose_apply, star_star]
    rw [e1, hV, hV, Matrix.single_apply]
    by_cases hm : m = σ a
    · by_cases hn : n = σ a
      · rw [if_pos hm, if_pos hn, if_pos ⟨hm.symm, hn.symm⟩, hφ]
        calc (1 : ℂ) = star (c a) * c a * (star (φ a k) * φ a k) := by rw [hc, hnorm, mul_one]
          _ = _ := by ring
      · rw [if_neg hn, star_zero, mul_zero, mul_zero, if_neg fun hh => hn hh.2.symm]
    · rw [if_neg hm, zero_mul, mul_zero, if_neg fun hh => hm hh.1.symm]
  rw [key q j hq, key q' (o.R j) hq',
    pairs_rotated o h h' _ j (fun _ : Unit => fun _ => Matrix.single a a 1) (fun _ : Unit => fun _ => Matrix.single b b 1) _ _
      (fun _ => star (c a)) (fun _ => star (c b)) (hrel a) (hrel b)]
  simp only [Fintype.sum_unique, star_star]
  ring

end

end Verif.Diag.Symm
