import Verif.Diag.Symmetry

/-!
# Property C176: further diagrams, antiunitary operations, and examples
-/

namespace Verif.Diag.Symm

open Matrix Verif.Diag Verif.Diag.Derivatives

variable {n1 n2 n3 nb : Nat} [NeZero n1] [NeZero n2] [NeZero n3] {X : Type} [DecidableEq X] [Fintype X]

section
variable {H H' : Mesh n1 n2 n3 → Matrix (Fin nb) (Fin nb) ℂ} (o : Operation H H') {e e' : Mesh n1 n2 n3 → Fin nb → ℝ}
  {U U' : Mesh n1 n2 n3 → Matrix (Fin nb) (Fin nb) ℂ} (h : ∀ k, Diagonalizes (H k) (e k) (U k))
  (h' : ∀ k, Diagonalizes (H' k) (e' k) (U' k))

/-! ### Triangle -/

theorem triangle_triples (eps kT : ℝ) (occ delta deltaPrime : ℝ → ℝ) (q Q : Fin 3 → ℝ) (j J i : Mesh n1 n2 n3) (hq : OnMesh q j)
    (hQ : OnMesh Q J) (hi : i + J = j) (gq gQ gqQ : Mesh n1 n2 n3 → Matrix (Fin nb) (Fin nb) ℂ) (e : Mesh n1 n2 n3 → Fin nb → ℝ)
    (U : Mesh n1 n2 n3 → Matrix (Fin nb) (Fin nb) ℂ) :
    triangle eps kT occ delta deltaPrime e q Q (coupling U j (fun _ : Unit => gq) ()) (coupling U J (fun _ : Unit => gQ) ())
      (coupling U i (fun _ : Unit => gqQ) ()) = 4 / ((n1 * n2 * n3 : Nat) : ℂ) * ∑ k,
      sum3 (fun x y z => (triangleFactor eps kT occ delta deltaPrime x y z : ℂ)) (e k) (e (k + j)) (e (k + J)) (U k) (U (k + j))
        (U (k + J)) (gq k)ᴴ (gqQ (k + J)) (gQ k) := by
  unfold triangle
  simp only [slice_q _ q j _ hq, slice_q _ Q J _ hQ]
  congr 1
  refine Finset.sum_congr rfl fun k _ => ?_
  unfold sum3 coupling
  refine Finset.sum_congr rfl fun a _ => Finset.sum_congr rfl fun b _ => Finset.sum_congr rfl fun c _ => ?_
  rw [star_mix, show k + J + i = k + j by rw [add_assoc, add_comm J i, hi]]
  ring

include h h' in
/-- **C176**: triangles at symmetry-related pairs of wave vectors are related by the representation in the space of displacements. -/
theorem C176_triangle (eps kT : ℝ) (occ delta deltaPrime : ℝ → ℝ) (q Q q' Q' : Fin 3 → ℝ) (j J i : Mesh n1 n2 n3) (hq : OnMesh q j)
    (hQ : OnMesh Q J) (hq' : OnMesh q' (o.R j)) (hQ' : OnMesh Q' (o.R J)) (hi : i + J = j) (S1 S2 S3 : X → X → ℂ)
    (gq gQ gqQ gq' gQ' gqQ' : X → Mesh n1 n2 n3 → Matrix (Fin nb) (Fin nb) ℂ) (h1 : o.Related j S1 gq gq') (h2 : o.Related J S2 gQ gQ')
    (h3 : o.Related i S3 gqQ gqQ') (x y z : X) :
    triangle eps kT occ delta deltaPrime e' q' Q' (coupling U' (o.R j) (fun _ : Unit => gq' x) ())
        (coupling U' (o.R J) (fun _ : Unit => gQ' y) ()) (coupling U' (o.R i) (fun _ : Unit => gqQ' z) ()) =
      ∑ x', ∑ y', ∑ z', star (S1 x x') * S2 y y' * S3 z z' * triangle eps kT occ delta deltaPrime e q Q (coupling U j (fun _ : Unit => gq x') ())
        (coupling U J (fun _ : Unit => gQ y') ()) (coupling U i (fun _ : Unit => gqQ z') ()) := by
  have hi' : o.R i + o.R J = o.R j := by rw [← map_add, hi]
  simp only [triangle_triples eps kT occ delta deltaPrime q Q j J i hq hQ hi,
    triangle_triples eps kT occ delta deltaPrime q' Q' (o.R j) (o.R J) (o.R i) hq' hQ' hi']
  set w : ℝ → ℝ → ℝ → ℂ := fun x y z => (triangleFactor eps kT occ delta deltaPrime x y z : ℂ) with hw
  have pull : ∀ (c : ℂ) (f : X → X → X → ℂ), c * ∑ x', ∑ y', ∑ z', star (S1 x x') * S2 y y' * S3 z z' * f x' y' z' =
      ∑ x', ∑ y', ∑ z', star (S1 x x') * S2 y y' * S3 z z' * (c * f x' y' z') := by
    intro c f
    simp only [Finset.mul_sum]
    exact Finset.sum_congr rfl fun x' _ => Finset.sum_congr rfl fun y' _ => Finset.sum_congr rfl fun z' _ => by ring
  rw [← pull]
  congr 1
  rw [← Equiv.sum_comp o.R.toEquiv]
  have e1 : ∀ k, sum3 w (e' (o.R k)) (e' (o.R k + o.R j)) (e' (o.R k + o.R J)) (U' (o.R k)) (U' (o.R k + o.R j)) (U' (o.R k + o.R J))
      (gq' x (o.R k))ᴴ (gqQ' z (o.R k + o.R J)) (gQ' y (o.R k)) = ∑ x', ∑ y', ∑ z', star (S1 x x') * S2 y y' * S3 z z' *
      sum3 w (e k) (e (k + j)) (e (k + J)) (U k) (U (k + j)) (U (k + J)) (gq x' k)ᴴ (gqQ z' (k + J)) (gQ y' k) := by
    intro k
    rw [← map_add, ← map_add, sum3_gauge w (rotated o h k) (h' _) (rotated o h (k + j)) (h' _) (rotated o h (k + J)) (h' _)]
    unfold sum3
    have f1 : ∀ (m n : Fin nb), mix (o.V k * U k) (gq' x (o.R k))ᴴ (o.V (k + j) * U (k + j)) m n =
        ∑ x', star (S1 x x') * mix (U k) (gq x' k)ᴴ (U (k + j)) m n := by
      intro m n
      rw [← star_mix, h1, mix_rotated, star_sum]
      exact Finset.sum_congr rfl fun x _ => by rw [star_mul', star_mix]
    have f2 : ∀ (m n : Fin nb), mix (o.V (k + J) * U (k + J)) (gQ' y (o.R k)) (o.V k * U k) m n =
        ∑ y', S2 y y' * mix (U (k + J)) (gQ y' k) (U k) m n := by
      intro m n
      rw [h2, mix_rotated]
    have f3 : ∀ (m n : Fin nb), mix (o.V (k + j) * U (k + j)) (gqQ' z (o.R (k + J))) (o.V (k + J) * U (k + J)) m n =
        ∑ z', S3 z z' * mix (U (k + j)) (gqQ z' (k + J)) (U (k + J)) m n := by
      intro m n
      rw [h3, show k + J + i = k + j by rw [add_assoc, add_comm J i, hi], mix_rotated]
    have e2 : ∀ a b c, w (e k a) (e (k + j) b) (e (k + J) c) * ((∑ x', star (S1 x x') * mix (U k) (gq x' k)ᴴ (U (k + j)) a b) *
        (∑ z', S3 z z' * mix (U (k + j)) (gqQ z' (k + J)) (U (k + J)) b c) * ∑ y', S2 y y' * mix (U (k + J)) (gQ y' k) (U k) c a) =
        ∑ x', ∑ y', ∑ z', star (S1 x x') * S2 y y' * S3 z z' * (w (e k a) (e (k + j) b) (e (k + J) c) *
        (mix (U k) (gq x' k)ᴴ (U (k + j)) a b * mix (U (k + j)) (gqQ z' (k + J)) (U (k + J)) b c * mix (U (k + J)) (gQ y' k) (U k) c a)) := by
      intro a b c
      rw [mul_right_comm (∑ x', _), Finset.sum_mul_sum, Finset.sum_mul, Finset.mul_sum]
      refine Finset.sum_congr rfl fun x' _ => ?_
      rw [Finset.sum_mul, Finset.mul_sum]
      refine Finset.sum_congr rfl fun y' _ => ?_
      rw [Finset.mul_sum, Finset.mul_sum]
      exact Finset.sum_congr rfl fun z' _ => by ring
    simp only [f1, f2, f3, e2]
    have comm : ∀ F : Fin nb → Fin nb → Fin nb → X → ℂ, ∑ a, ∑ b, ∑ c, ∑ x', F a b c x' = ∑ x', ∑ a, ∑ b, ∑ c, F a b c x' := by
      intro F
      refine (Finset.sum_congr rfl fun a _ => ?_).trans Finset.sum_comm
      exact (Finset.sum_congr rfl fun b _ => Finset.sum_comm).trans Finset.sum_comm
    rw [comm]
    refine Finset.sum_congr rfl fun x' _ => ?_
    rw [comm]
    refine Finset.sum_congr rfl fun y' _ => ?_
    rw [comm]
    refine Finset.sum_congr rfl fun z' _ => ?_
    simp only [Finset.mul_sum]
  refine (Finset.sum_congr rfl fun k _ => e1 k).trans ?_
  rw [Finset.sum_comm]
  refine Finset.sum_congr rfl fun x' _ => ?_
  rw [Finset.sum_comm]
  refine Finset.sum_congr rfl fun y' _ => ?_
  rw [Finset.sum_comm]
  exact Finset.sum_congr rfl fun z' _ => by rw [Finset.mul_sum]

/-! ### First order -/

include h h' in
theorem single_rotated (w : ℝ → ℂ) (S : X → X → ℂ) (g g' : X → Mesh n1 n2 n3 → Matrix (Fin nb) (Fin nb) ℂ) (hg : o.Related 0 S g g') (x : X) :
    ∑ k, sum1 w (e' k) (U' k) (g' x k) = ∑ y, S x y * ∑ k, sum1 w (e k) (U k) (g y k) := by
  rw [← Equiv.sum_comp o.R.toEquiv]
  have e1 : ∀ k, sum1 w (e' (o.R k)) (U' (o.R k)) (g' x (o.R k)) = ∑ y, S x y * sum1 w (e k) (U k) (g y k) := by
    intro k
    rw [sum1_gauge w (rotated o h k) (h' _), hg]
    unfold sum1
    simp only [add_zero, mix_rotated, Finset.mul_sum]
    rw [Finset.sum_comm]
    exact Finset.sum_congr rfl fun y _ => Finset.sum_congr rfl fun m _ => by ring
  refine (Finset.sum_congr rfl fun k _ => e1 k).trans ?_
  rw [Finset.sum_comm]
  exact Finset.sum_congr rfl fun y _ => by rw [Finset.mul_sum]

include h h' in
/-- **C176**: forces (diagram of first order) transform like displacements, ... -/
theorem C176_first (kT : ℝ) (occ : ℝ → ℝ) (S : X → X → ℂ) (g g' : X → Mesh n1 n2 n3 → Matrix (Fin nb) (Fin nb) ℂ) (hg : o.Related 0 S g g')
    (x : X) : (firstOrder kT occ e' fun k => mix (U' k) (g' x k) (U' k)) =
      ∑ y, S x y * firstOrder kT occ e fun k => mix (U k) (g y k) (U k) := by
  simp only [firstOrder_sum]
  rw [single_rotated o h h' _ S g g' hg, Finset.mul_sum]
  exact Finset.sum_congr rfl fun y _ => by ring

/-- **C176**: ... so that they vanish if an operation reverses the displacements, ... -/
theorem C176_equilibrium {H : Mesh n1 n2 n3 → Matrix (Fin nb) (Fin nb) ℂ} (o : Operation H H) {e : Mesh n1 n2 n3 → Fin nb → ℝ}
    {U : Mesh n1 n2 n3 → Matrix (Fin nb) (Fin nb) ℂ} (h : ∀ k, Diagonalizes (H k) (e k) (U k)) (kT : ℝ) (occ : ℝ → ℝ)
    (g : X → Mesh n1 n2 n3 → Matrix (Fin nb) (Fin nb) ℂ) (hg : o.Related 0 (fun x y => if x = y then -1 else 0) g g) (x : X) :
    (firstOrder kT occ e fun k => mix (U k) (g x k) (U k)) = 0 := by
  have := C176_first o h h kT occ _ g g hg x
  simp only [ite_mul, neg_mul, one_mul, zero_mul, Finset.sum_ite_eq, Finset.mem_univ, if_true] at this
  exact self_eq_neg.1 this

include h h' in
/-- **C176**: ... and the correction for a fixed number of electrons transforms like the phonon self-energy if the representation is real. -/
theorem C176_fermi_shift (kT : ℝ) (delta : ℝ → ℝ) (S : X → X → ℂ) (g g' : X → Mesh n1 n2 n3 → Matrix (Fin nb) (Fin nb) ℂ)
    (hg : o.Related 0 S g g') (x y : X) :
    fermiShift kT delta e' (fun x k => mix (U' k) (g' x k) (U' k)) x y =
      ∑ x', ∑ y', S x x' * S y y' * fermiShift kT delta e (fun x k => mix (U k) (g x k) (U k)) x' y' := by
  set w : ℝ → ℂ := fun x => ((delta (x / kT) / kT : ℝ) : ℂ) with hw
  have h1 : ∀ x, ∑ k, ∑ n, ((delta (e' k n / kT) / kT : ℝ) : ℂ) * mix (U' k) (g' x k) (U' k) n n =
      ∑ x', S x x' * ∑ k, ∑ n, ((delta (e k n / kT) / kT : ℝ) : ℂ) * mix (U k) (g x' k) (U k) n n :=
    fun x => single_rotated o h h' w S g g' hg x
  have h2 : ∑ k, ∑ n, delta (e' k n / kT) / kT = ∑ k, ∑ n, delta (e k n / kT) / kT := by
    rw [← Equiv.sum_comp o.R.toEquiv]
    refine Finset.sum_congr rfl fun k _ => ?_
    rw [← Complex.ofReal_inj]
    push_cast
    have h3 := sum1_gauge w (rotated o h k) (h' (o.R k)) 1
    unfold sum1 mix at h3
    simp only [Matrix.mul_one, (rotated o h k).unitary, (h' _).unitary, Matrix.one_apply_eq, mul_one, hw] at h3
    push_cast at h3
    exact h3
  unfold fermiShift
  simp only [h1, h2]
  rw [Finset.sum_div, Finset.sum_div, Finset.sum_mul_sum, Finset.mul_sum]
  refine Finset.sum_congr rfl fun x' _ => ?_
  rw [Finset.mul_sum]
  exact Finset.sum_congr rfl fun y' _ => by ring

end

/-! ### Antiunitary operations -/

theorem conj_mul (A B : Matrix (Fin nb) (Fin nb) ℂ) : conj (A * B) = conj A * conj B := by
  ext x y
  simp only [conj, Matrix.map_apply, Matrix.mul_apply, star_sum]
  exact Finset.sum_congr rfl fun z _ => by rw [star_mul']

theorem conj_conjTranspose (A : Matrix (Fin nb) (Fin nb) ℂ) : conj Aᴴ = (conj A)ᴴ := by
  ext x y
  simp [conj]

theorem conj_one : conj (1 : Matrix (Fin nb) (Fin nb) ℂ) = 1 := by
  ext x y
  by_cases hxy : x = y <;> simp [conj, Matrix.one_apply, hxy]

theorem Diagonalizes_conj {A U : Matrix (Fin nb) (Fin nb) ℂ} {e : Fin nb → ℝ} (h : Diagonalizes A e U) : Diagonalizes (conj A) e (conj U) where
  eig := by
    rw [← conj_mul, h.eig, conj_mul]
    congr 1
    ext x y
    by_cases hxy : x = y <;> simp [conj, Matrix.diagonal_apply, hxy]
  unitary := by
    rw [← conj_conjTranspose, ← conj_mul, h.unitary, conj_one]

theorem coupling_conj (U : Mesh n1 n2 n3 → Matrix (Fin nb) (Fin nb) ℂ) (j : Mesh n1 n2 n3)
    (g : X → Mesh n1 n2 n3 → Matrix (Fin nb) (Fin nb) ℂ) :
    coupling (fun k => conj (U k)) j (fun x k => conj (g x k)) = fun x k m n => star (coupling U j g x k m n) := by
  funext x k m n
  unfold coupling mix
  rw [← conj_conjTranspose, ← conj_mul, ← conj_mul]
  rfl

theorem selfEnergy_star (sym : Bool) (w : Mesh n1 n2 n3 → Fin nb → Fin nb → ℝ) (g : Cpl n1 n2 n3 nb X) (x y : X) :
    selfEnergy sym false (fun k m n => (w k m n : ℂ)) (fun _ _ => 0) (fun x k m n => star (g x k m n)) none x y =
      star (selfEnergy sym false (fun k m n => (w k m n : ℂ)) (fun _ _ => 0) g none x y) := by
  have key : ∀ g : Cpl n1 n2 n3 nb X, selfEnergy sym false (fun k m n => (w k m n : ℂ)) (fun _ _ => 0) g none x y =
      2 / ((n1 * n2 * n3 : Nat) : ℂ) * ∑ k, ∑ m, ∑ n, star (g x k m n) * g y k m n * (w k m n : ℂ) := by
    intro g
    unfold selfEnergy contact piK
    simp only [Bool.false_eq_true, false_and, if_false, Complex.ofReal_zero, zero_div, mul_zero, zero_mul, Finset.sum_const_zero, add_zero]
  have hr : ∀ r : ℝ, star (r : ℂ) = (r : ℂ) := fun r => Complex.conj_ofReal r
  have h2 : star (2 / ((n1 * n2 * n3 : Nat) : ℂ)) = 2 / ((n1 * n2 * n3 : Nat) : ℂ) := by
    rw [show (2 / ((n1 * n2 * n3 : Nat) : ℂ)) = ((2 / ((n1 * n2 * n3 : Nat) : ℝ) : ℝ) : ℂ) by push_cast; rfl, hr]
  rw [key, key, star_mul', h2]
  congr 1
  simp only [star_sum, star_mul', star_star, hr]

/-- **C176**: for antiunitary operations such as time reversal, the complex conjugate appears. -/
theorem C176_antiunitary {H H' : Mesh n1 n2 n3 → Matrix (Fin nb) (Fin nb) ℂ} (o : Operation (fun k => conj (H k)) H')
    {e e' : Mesh n1 n2 n3 → Fin nb → ℝ} {U U' : Mesh n1 n2 n3 → Matrix (Fin nb) (Fin nb) ℂ} (h : ∀ k, Diagonalizes (H k) (e k) (U k))
    (h' : ∀ k, Diagonalizes (H' k) (e' k) (U' k)) (eps kT : ℝ) (occ delta : ℝ → ℝ) (win : Option Window) (sym : Bool) (q q' : Fin 3 → ℝ)
    (j : Mesh n1 n2 n3) (hq : OnMesh q j) (hq' : OnMesh q' (o.R j)) (S : X → X → ℂ)
    (g g' : X → Mesh n1 n2 n3 → Matrix (Fin nb) (Fin nb) ℂ) (hg : o.Related j S (fun x k => conj (g x k)) g') (mu nu : X) :
    selfEnergy sym false (fun k m n => (weights eps kT occ delta win e' q' k m n : ℂ)) (fun _ _ => 0) (coupling U' (o.R j) g') none mu nu =
      ∑ x, ∑ y, star (S mu x) * S nu y * star (selfEnergy sym false (fun k m n => (weights eps kT occ delta win e q k m n : ℂ)) (fun _ _ => 0)
        (coupling U j g) none x y) := by
  have := C176_self_energy o (fun k => Diagonalizes_conj (h k)) h' eps kT occ delta win sym q q' j hq hq' S (fun x k => conj (g x k)) g' hg
    (fun x k => conj (g x k)) g' hg false mu nu
  simp only [Bool.false_eq_true, if_false, Option.map_none] at this
  rw [this]
  refine Finset.sum_congr rfl fun x _ => Finset.sum_congr rfl fun y _ => ?_
  rw [coupling_conj, selfEnergy_star]

/-! ### Susceptibility -/

/-- **C176**: the susceptibility has the symmetry of the band. -/
theorem C176_susceptibility {n : Nat} [NeZero n] (R : Mesh n n 1 ≃+ Mesh n n 1) (e : Mesh n n 1 → ℝ) (he : ∀ k, e (R k) = e k) (kT eta : ℝ)
    (occ delta : ℝ → ℝ) (q1 q2 p1 p2 : ℝ) (j : Mesh n n 1) (hq : OnMesh (vec2 q1 q2) j) (hp : OnMesh (vec2 p1 p2) (R j)) :
    susceptibility e kT eta occ delta p1 p2 = susceptibility e kT eta occ delta q1 q2 := by
  by_cases hj : j = 0
  · subst hj
    rw [map_zero] at hp
    rw [C51_zero e kT eta occ delta _ _ hq, C51_zero e kT eta occ delta _ _ hp]
  · have hR : R j ≠ 0 := fun h0 => hj (R.injective (h0.trans (map_zero R).symm))
    rw [C51_value e kT eta occ delta _ _ _ hq hj, C51_value e kT eta occ delta _ _ _ hp hR]
    unfold lindhard
    rw [← Equiv.sum_comp R.toEquiv]
    congr 2
    refine Finset.sum_congr rfl fun k _ => ?_
    show ((occ (e (R k + R j) / kT) - occ (e (R k) / kT) : ℝ) : ℂ) / (((e (R k + R j) - e (R k) : ℝ) : ℂ) + _) = _
    rw [← map_add, he, he]

/-! ### Examples -/

/-- Fourfold rotation. -/
def fourfold (n : Nat) [NeZero n] : Mesh n n 1 ≃+ Mesh n n 1 where
  toFun k := (-k.2.1, k.1, k.2.2)
  invFun k := (k.2.1, -k.1, k.2.2)
  left_inv k := by simp
  right_inv k := by simp
  map_add' k l := by
    refine Prod.ext ?_ (Prod.ext ?_ ?_)
    · show -(k.2.1 + l.2.1) = -k.2.1 + -l.2.1
      exact neg_add _ _
    · rfl
    · rfl

/-- Two orbitals with dispersion along `x` and `y`, respectively. -/
def chains {n : Nat} [NeZero n] (c : Fin n → ℝ) (k : Mesh n n 1) : Matrix (Fin 2) (Fin 2) ℂ :=
  Matrix.diagonal fun a => if a = 0 then (c k.1 : ℂ) else (c k.2.1 : ℂ)

/-- Two displacements that couple to one of them, respectively. -/
def chainCoupling {n : Nat} [NeZero n] (t : Fin n → ℂ) (x : Fin 2) (k : Mesh n n 1) : Matrix (Fin 2) (Fin 2) ℂ :=
  Matrix.diagonal fun a => if a = x then (if x = 0 then t k.1 else t k.2.1) else 0

/-- Exchange. -/
def swap : Matrix (Fin 2) (Fin 2) ℂ := Matrix.of fun a b => if a = b then 0 else 1

theorem swap_unitary : swapᴴ * swap = 1 := by
  ext a b
  fin_cases a <;> fin_cases b <;> simp [swap, Matrix.mul_apply, Fin.sum_univ_two]

/-- Both are exchanged by a fourfold rotation. -/
def chainRotation {n : Nat} [NeZero n] (c : Fin n → ℝ) (hc : ∀ k, c (-k) = c k) : Operation (chains c) (chains c) where
  R := fourfold n
  V _ := swap
  unitary _ := swap_unitary
  ham k := by
    ext a b
    fin_cases a <;> fin_cases b <;>
      simp [chains, fourfold, swap, Matrix.mul_apply, Fin.sum_univ_two, hc]

theorem chain_related {n : Nat} [NeZero n] (c : Fin n → ℝ) (hc : ∀ k, c (-k) = c k) (t : Fin n → ℂ) (ht : ∀ k, t (-k) = t k) (j : Mesh n n 1) :
    (chainRotation c hc).Related j swap (chainCoupling t) (chainCoupling t) := by
  intro x k
  ext a b
  fin_cases x <;> fin_cases a <;> fin_cases b <;>
    simp [chainRotation, chainCoupling, fourfold, swap, Matrix.mul_apply, Fin.sum_univ_two, ht]

theorem chain_diagonalizes {n : Nat} [NeZero n] (c : Fin n → ℝ) (k : Mesh n n 1) : Diagonalizes (chains c k) ![c k.1, c k.2.1] 1 where
  eig := by
    rw [Matrix.mul_one, Matrix.one_mul]
    unfold chains
    congr 1
    funext a
    fin_cases a <;> rfl
  unitary := by simp

/-- Phonon self-energy for a displacement along `y` at `R q` from that along `x` at `q`. -/
example {n : Nat} [NeZero n] (c : Fin n → ℝ) (hc : ∀ k, c (-k) = c k) (t : Fin n → ℂ) (ht : ∀ k, t (-k) = t k) (eps kT : ℝ)
    (occ delta : ℝ → ℝ) (win : Option Window) (q q' : Fin 3 → ℝ) (j : Mesh n n 1) (hq : OnMesh q j) (hq' : OnMesh q' (fourfold n j)) :
    selfEnergy true false (fun k m n => (weights eps kT occ delta win (fun k => ![c k.1, c k.2.1]) q' k m n : ℂ)) (fun _ _ => 0)
        (coupling (fun _ => 1) (fourfold n j) (chainCoupling t)) none 1 1 =
      selfEnergy true false (fun k m n => (weights eps kT occ delta win (fun k => ![c k.1, c k.2.1]) q k m n : ℂ)) (fun _ _ => 0)
        (coupling (fun _ => 1) j (chainCoupling t)) none 0 0 := by
  have hr := chain_related c hc t ht j
  have := C176_self_energy (chainRotation c hc) (chain_diagonalizes c) (chain_diagonalizes c) eps kT occ delta win true q q' j hq hq' swap _ _ hr _ _
    hr false 1 1
  simp only [Bool.false_eq_true, if_false, Option.map_none, Fin.sum_univ_two] at this
  refine Eq.trans this ?_
  simp [swap]

example {n : Nat} [NeZero n] (c : Fin n → ℝ) (hc : ∀ k, c (-k) = c k) (kT eta : ℝ) (occ delta : ℝ → ℝ) (q1 q2 p1 p2 : ℝ) (j : Mesh n n 1)
    (hq : OnMesh (vec2 q1 q2) j) (hp : OnMesh (vec2 p1 p2) (fourfold n j)) :=
  C176_susceptibility (fourfold n) (fun k => c k.1 + c k.2.1) (fun k => by
    show c (-k.2.1) + c k.1 = _
    rw [hc, add_comm]) kT eta occ delta q1 q2 p1 p2 j hq hp

section
variable {n : Nat} [NeZero n] (c : Fin n → ℝ) (hc : ∀ k, c (-k) = c k) (t : Fin n → ℂ) (ht : ∀ k, t (-k) = t k)

example (omega : ℂ) (kT : ℝ) (occ : ℝ → ℝ) (sym : Bool) (q q' : Fin 3 → ℝ) (j : Mesh n n 1) (hq : OnMesh q j) (hq' : OnMesh q' (fourfold n j)) :=
  C176_dynamic (chainRotation c hc) (chain_diagonalizes c) (chain_diagonalizes c) omega kT occ sym q q' j hq hq' swap _ _
    (chain_related c hc t ht j) _ _ (chain_related c hc t ht j) true

example (kT : ℝ) (delta : ℝ → ℝ) (q q' : Fin 3 → ℝ) (j : Mesh n n 1) (hq : OnMesh q j) (hq' : OnMesh q' (fourfold n j)) :=
  C176_fermi_average (chainRotation c hc) (chain_diagonalizes c) (chain_diagonalizes c) kT delta q q' j hq hq' swap swap_unitary _ _
    (chain_related c hc t ht j)

/-- Polarizations of one orbital at `q` and of the other at `R q`. -/
example (eps kT : ℝ) (occ delta : ℝ → ℝ) (q q' : Fin 3 → ℝ) (j : Mesh n n 1) (hq : OnMesh q j) (hq' : OnMesh q' (fourfold n j)) (a b : Fin 2) :=
  C176_polarization (chainRotation c hc) (chain_diagonalizes c) (chain_diagonalizes c) eps kT occ delta q q' j hq hq' (Equiv.swap 0 1)
    (fun _ _ => 1) (fun k a b => by fin_cases a <;> fin_cases b <;> simp [chainRotation, swap]) (fun _ => 1) (fun _ _ => (one_mul 1).symm) a b

example (eps kT : ℝ) (occ delta deltaPrime : ℝ → ℝ) (q Q q' Q' : Fin 3 → ℝ) (j J i : Mesh n n 1) (hq : OnMesh q j) (hQ : OnMesh Q J)
    (hq' : OnMesh q' (fourfold n j)) (hQ' : OnMesh Q' (fourfold n J)) (hi : i + J = j) (x y z : Fin 2) :=
  C176_triangle (chainRotation c hc) (chain_diagonalizes c) (chain_diagonalizes c) eps kT occ delta deltaPrime q Q q' Q' j J i hq hQ hq' hQ' hi
    swap swap swap _ _ _ _ _ _ (chain_related c hc t ht j) (chain_related c hc t ht J) (chain_related c hc t ht i) x y z

example (kT : ℝ) (occ : ℝ → ℝ) (x : Fin 2) :=
  C176_first (chainRotation c hc) (chain_diagonalizes c) (chain_diagonalizes c) kT occ swap _ _ (chain_related c hc t ht 0) x

example (kT : ℝ) (delta : ℝ → ℝ) (x y : Fin 2) :=
  C176_fermi_shift (chainRotation c hc) (chain_diagonalizes c) (chain_diagonalizes c) kT delta swap _ _ (chain_related c hc t ht 0) x y

example (u v : ℂ) : ((Matrix.of fun a b => if a = b then (if a = 0 then u else v) else 1) + 0 : Matrix (Fin 2) (Fin 2) ℂ).charpoly =
    ((Matrix.of fun a b => if a = b then (if a = 0 then v else u) else 1) + 0 : Matrix (Fin 2) (Fin 2) ℂ).charpoly :=
  (C176_frequencies (Matrix.of fun a b => if a = b then (if a = 0 then u else v) else 1)
    (Matrix.of fun a b => if a = b then (if a = 0 then v else u) else 1) 0 0 swap swap_unitary
    (fun x y => by fin_cases x <;> fin_cases y <;> simp [swap, Fin.sum_univ_two]) (fun x y => by simp)).symm

/-- Inversion of wave vectors. -/
def chainInversion : Operation (chains c) (chains c) where
  R := AddEquiv.neg _
  V _ := 1
  unitary _ := by simp
  ham k := by
    have : chains c (-k) = chains c k := by
      unfold chains
      congr 1
      funext a
      show (if a = 0 then (c (-k.1) : ℂ) else (c (-k.2.1) : ℂ)) = _
      rw [hc, hc]
    simpa using this

/-- Without forces if the coupling is odd. -/
example (s : Fin n → ℂ) (hs : ∀ k, s (-k) = -s k) (kT : ℝ) (occ : ℝ → ℝ) (x : Fin 2) :
    (firstOrder kT occ (fun k => ![c k.1, c k.2.1]) fun k => mix 1 (chainCoupling s x k) 1) = 0 := by
  refine C176_equilibrium (chainInversion c hc) (chain_diagonalizes c) kT occ (chainCoupling s) ?_ x
  intro x k
  have : chainCoupling s x (-k) = -chainCoupling s x k := by
    unfold chainCoupling
    rw [Matrix.diagonal_neg]
    congr 1
    funext a
    show (if a = x then (if x = 0 then s (-k.1) else s (-k.2.1)) else 0) = -(if a = x then (if x = 0 then s k.1 else s k.2.1) else 0)
    rw [hs, hs]
    split_ifs <;> simp
  simp only [ite_smul, zero_smul, neg_smul, one_smul, Finset.sum_ite_eq, Finset.mem_univ, if_true]
  simpa [chainInversion] using this

/-- Time reversal. -/
def chainReversal : Operation (fun k => conj (chains c k)) (chains c) where
  R := AddEquiv.neg _
  V _ := 1
  unitary _ := by simp
  ham k := by
    have h1 : chains c (-k) = conj (chains c k) := by
      ext a b
      show Matrix.diagonal (fun a => if a = 0 then (c (-k.1) : ℂ) else (c (-k.2.1) : ℂ)) a b =
        star (Matrix.diagonal (fun a => if a = 0 then (c k.1 : ℂ) else (c k.2.1 : ℂ)) a b)
      rw [hc, hc, Matrix.diagonal_apply]
      split_ifs <;> simp
    simpa using h1

example (s : Fin n → ℂ) (hs : ∀ k, s (-k) = star (s k)) (eps kT : ℝ) (occ delta : ℝ → ℝ) (win : Option Window) (sym : Bool) (q q' : Fin 3 → ℝ)
    (j : Mesh n n 1) (hq : OnMesh q j) (hq' : OnMesh q' (-j)) (x y : Fin 2) :=
  C176_antiunitary (chainReversal c hc) (chain_diagonalizes c) (chain_diagonalizes c) eps kT occ delta win sym q q' j hq hq'
    (fun x y => if x = y then 1 else 0) (chainCoupling s) (chainCoupling s) (by
      intro x k
      have h1 : chainCoupling s x (-k) = conj (chainCoupling s x k) := by
        ext a b
        show Matrix.diagonal (fun a => if a = x then (if x = 0 then s (-k.1) else s (-k.2.1)) else 0) a b =
          star (Matrix.diagonal (fun a => if a = x then (if x = 0 then s k.1 else s k.2.1) else 0) a b)
        rw [hs, hs, Matrix.diagonal_apply, Matrix.diagonal_apply]
        split_ifs <;> simp
      simp only [ite_smul, zero_smul, one_smul, Finset.sum_ite_eq, Finset.mem_univ, if_true]
      simpa [chainReversal] using h1) x y

end

end Verif.Diag.Symm
