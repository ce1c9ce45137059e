import Verif.Diag.Mesh
import Verif.MPI.Props
import Mathlib.LinearAlgebra.Matrix.ConjTranspose
import Mathlib.Data.Complex.BigOperators
import Mathlib.LinearAlgebra.Matrix.NonsingularInverse

/-!
# Electron-phonon coupling in the band basis: `sample` and `transform` of `elphmod/elph.py`

Exact arithmetic. The sampled function `g` is given by its values (see C47 and C61 for the cache and shared memory of
`Model.g` and the loop of `sample` over processes).
-/

namespace Verif.ElPh

open Matrix Verif.Diag

/-- Optional arguments `U` and `u`: matrices of eigenvectors, one per point; not necessarily all eigenvectors. -/
structure Frame (M O : Type) where
  B : Type
  U : M → Matrix O B ℂ

/-- `elphmod/elph.py` 864-871, 961-965: number of bands or modes in the result. -/
abbrev Frame.Index {M O : Type} : Option (Frame M O) → Type
  | none => O
  | some f => f.B

/-- `elphmod/elph.py` 881, 884 (`KQ1 = (K1 + Q1) % nk[0]`), 973, 977 (`kq1 = (k1 + q1) % nk`). -/
def wrap {n : Nat} [NeZero n] (k : Fin n) (Q : ℤ) : Fin n :=
  ⟨(((k : ℕ) + Q) % (n : ℤ)).toNat, by
    have h : (0 : ℤ) < n := Int.natCast_pos.2 (NeZero.pos n)
    have h1 := Int.emod_nonneg ((k : ℕ) + Q) h.ne'
    have h2 := Int.emod_lt_of_pos ((k : ℕ) + Q) h
    omega⟩

section
variable {X O I P K : Type} [Fintype X] [Fintype O]

/-- `elphmod/elph.py` 894-896, 983-985 (`einsum('am,xab,bn->xmn', ...)`). -/
noncomputable def rotate (U : Option (Frame K O)) (kq k : K) (g : X → O → O → ℂ) : X → Frame.Index U → Frame.Index U → ℂ :=
  match U with
  | none => g
  | some f => fun x m n => ∑ a, ∑ b, star (f.U kq a m) * g x a b * f.U k b n

/-- `elphmod/elph.py` 898-899, 987-988 (`einsum('xab,xu->uab', ...)`). -/
noncomputable def polarize (u : Option (Frame P X)) (iq : P) (g : X → I → I → ℂ) : Frame.Index u → I → I → ℂ :=
  match u with
  | none => g
  | some f => fun nu a b => ∑ x, g x a b * f.U iq x nu

/-- `elphmod/elph.py` 901-903, 990-992 (`gqk *= gqk.conj(); gqk = gqk.real`). -/
noncomputable def square (squared : Bool) (z : ℂ) : ℂ := if squared then ((z * star z).re : ℂ) else z

/-- The steps above for one pair of wave vectors. -/
noncomputable def toBands (U : Option (Frame K O)) (u : Option (Frame P X)) (squared : Bool) (iq : P) (kq k : K) (g : X → O → O → ℂ)
    (nu : Frame.Index u) (m n : Frame.Index U) : ℂ :=
  square squared (polarize u iq (rotate U kq k g) nu m n)

variable {nq : Nat}

/-- `elphmod/elph.py` 876-905 (`sample`): the coupling for one `iq` on the whole mesh. -/
noncomputable def sampleOne {n1 n2 n3 : Nat} [NeZero n1] [NeZero n2] [NeZero n3] (g : (Fin 3 → ℝ) → (Fin 3 → ℝ) → X → O → O → ℂ)
    (q : Fin nq → Fin 3 → ℝ) (U : Option (Frame (Mesh n1 n2 n3) O)) (u : Option (Frame (Fin nq) X)) (squared : Bool) (iq : Fin nq)
    (nu : Frame.Index u) (K : Mesh n1 n2 n3) : Frame.Index U → Frame.Index U → ℂ :=
  let Q := fun n i => roundEven (q iq i / (2 * Real.pi / (n : Nat)))
  let KQ := (wrap K.1 (Q n1 0), wrap K.2.1 (Q n2 1), wrap K.2.2 (Q n3 2))
  let k : Fin 3 → ℝ := ![(K.1 : ℕ) * (2 * Real.pi / n1), (K.2.1 : ℕ) * (2 * Real.pi / n2), (K.2.2 : ℕ) * (2 * Real.pi / n3)]
  toBands U u squared iq KQ K (g (q iq) k) nu

/-- `elphmod/elph.py` 968-994 (`transform`): the coupling for one `iq` on a two-dimensional mesh. -/
noncomputable def transformOne {n : Nat} [NeZero n] (g : Fin nq → X → Fin n × Fin n → O → O → ℂ) (q : Fin nq → Fin 2 → ℝ)
    (U : Option (Frame (Fin n × Fin n) O)) (u : Option (Frame (Fin nq) X)) (squared : Bool) (iq : Fin nq) (nu : Frame.Index u)
    (k : Fin n × Fin n) : Frame.Index U → Frame.Index U → ℂ :=
  let Q := fun i => roundEven (q iq i / (2 * Real.pi / (n : Nat)))
  toBands U u squared iq (wrap k.1 (Q 0), wrap k.2 (Q 1)) k (fun x => g iq x k) nu

/-- `elphmod/elph.py` 948-1005 (`transform`) on `size` processes: loop of each process and `Gatherv`. -/
noncomputable def transform {n : Nat} [NeZero n] (size : Nat) (g : Fin nq → X → Fin n × Fin n → O → O → ℂ) (q : Fin nq → Fin 2 → ℝ)
    (U : Option (Frame (Fin n × Fin n) O)) (u : Option (Frame (Fin nq) X)) (squared : Bool) :
    Option (List (Frame.Index u → Fin n × Fin n → Frame.Index U → Frame.Index U → ℂ)) :=
  Verif.MPI.parMap size (transformOne g q U u squared) (List.finRange nq)

/-- `elphmod/elph.py` 979-992: the argument `g` on the process which is responsible for `mine`, after the call. Without `U` and
`u`, the variable `gqk` is a view of `g`, which is multiplied in place; the assignment of complex values to it keeps the
imaginary part, which is zero. -/
noncomputable def argumentAfter {n : Nat} (mine : List (Fin nq)) (g : Fin nq → X → Fin n × Fin n → O → O → ℂ)
    (U : Option (Frame (Fin n × Fin n) O)) (u : Option (Frame (Fin nq) X)) (squared : Bool) : Fin nq → X → Fin n × Fin n → O → O → ℂ :=
  fun iq x k a b =>
    if iq ∈ mine ∧ squared = true ∧ U.isNone = true ∧ u.isNone = true then g iq x k a b * star (g iq x k a b) else g iq x k a b

end


/-! ### Sum of squares -/

theorem wrap_zero {n : Nat} [NeZero n] (k : Fin n) : wrap k 0 = k := by
  apply Fin.ext
  have := k.2
  simp only [wrap, add_zero]
  rw [Int.emod_eq_of_lt (by omega) (by omega)]
  simp

theorem column {A B : Type} [Fintype A] [Fintype B] [DecidableEq A] (u : Matrix A B ℂ) (h : u * uᴴ = 1) (c : A → ℂ) :
    ∑ n, ‖∑ x, c x * u x n‖ ^ 2 = ∑ x, ‖c x‖ ^ 2 := by
  have e : ((∑ n, ‖∑ x, c x * u x n‖ ^ 2 : ℝ) : ℂ) = ((∑ x, ‖c x‖ ^ 2 : ℝ) : ℂ) := by
    rw [Complex.ofReal_sum, Complex.ofReal_sum]
    calc _ = ∑ n, ∑ x, ∑ y, c x * star (c y) * (u x n * uᴴ n y) := by
          refine Finset.sum_congr rfl fun n _ => ?_
          rw [Complex.ofReal_pow, ← Complex.mul_conj', map_sum, Finset.sum_mul_sum]
          refine Finset.sum_congr rfl fun x _ => Finset.sum_congr rfl fun y _ => ?_
          rw [conjTranspose_apply, map_mul]
          show _ = c x * (starRingEnd ℂ) (c y) * (u x n * (starRingEnd ℂ) (u y n))
          ring
      _ = ∑ x, ∑ y, c x * star (c y) * (u * uᴴ) x y := by
          rw [Finset.sum_comm]
          refine Finset.sum_congr rfl fun x _ => ?_
          rw [Finset.sum_comm]
          refine Finset.sum_congr rfl fun y _ => ?_
          rw [mul_apply, Finset.mul_sum]
      _ = _ := by
          refine Finset.sum_congr rfl fun x _ => ?_
          rw [h]
          simp only [one_apply, mul_ite, mul_one, mul_zero, Finset.sum_ite_eq, Finset.mem_univ, if_true]
          rw [Complex.ofReal_pow, ← Complex.mul_conj', Complex.star_def]
  exact_mod_cast e

section
variable {X O I P K : Type} [Fintype X] [Fintype O] [DecidableEq X] [DecidableEq O]

/-- Sum over all bands. -/
theorem rotate_norm (f : Frame K O) [Fintype f.B] (h : ∀ k, f.U k * (f.U k)ᴴ = 1) (kq k : K) (g : X → O → O → ℂ) (x : X) :
    ∑ m : f.B, ∑ n : f.B, ‖rotate (some f) kq k g x m n‖ ^ 2 = ∑ a, ∑ b, ‖g x a b‖ ^ 2 := by
  have e1 : ∀ m n : f.B, rotate (some f) kq k g x m n = ∑ b, (∑ a, g x a b * star (f.U kq a m)) * f.U k b n := by
    intro m n
    show ∑ a, ∑ b, star (f.U kq a m) * g x a b * f.U k b n = _
    rw [Finset.sum_comm]
    refine Finset.sum_congr rfl fun b _ => ?_
    rw [Finset.sum_mul]
    refine Finset.sum_congr rfl fun a _ => ?_
    ring
  simp only [e1]
  rw [Finset.sum_congr rfl fun m _ => column (f.U k) (h k) fun b => ∑ a, g x a b * star (f.U kq a m), Finset.sum_comm]
  conv_rhs => rw [Finset.sum_comm]
  refine Finset.sum_congr rfl fun b _ => ?_
  have hs : (f.U kq).map star * ((f.U kq).map star)ᴴ = 1 := by
    ext i j
    have h2 := congrArg star (congrFun (congrFun (h kq) i) j)
    simp only [map_apply, mul_apply, conjTranspose_apply, star_sum, star_mul', star_star, one_apply] at h2 ⊢
    rw [h2]
    split_ifs <;> simp
  exact column ((f.U kq).map star) hs fun a => g x a b

/-- Sum over all modes. -/
theorem polarize_norm (f : Frame P X) [Fintype f.B] (h : ∀ k, f.U k * (f.U k)ᴴ = 1) (iq : P) (g : X → I → I → ℂ) (a b : I) :
    ∑ nu : f.B, ‖polarize (some f) iq g nu a b‖ ^ 2 = ∑ x, ‖g x a b‖ ^ 2 :=
  column (f.U iq) (h iq) fun x => g x a b

/-- C117: the sum of the squared modulus of the coupling over bands and modes does not depend on the basis, no matter if the
electrons, the phonons, or both are transformed. -/
theorem C117_norm (f : Frame K O) (v : Frame P X) [Fintype f.B] [Fintype v.B] (h : ∀ k, f.U k * (f.U k)ᴴ = 1)
    (hv : ∀ q, v.U q * (v.U q)ᴴ = 1) (iq : P) (kq k : K) (g : X → O → O → ℂ) :
    (∑ nu : v.B, ∑ m : f.B, ∑ n : f.B, ‖toBands (some f) (some v) false iq kq k g nu m n‖ ^ 2 = ∑ x, ∑ a, ∑ b, ‖g x a b‖ ^ 2) ∧
    (∑ x : X, ∑ m : f.B, ∑ n : f.B, ‖toBands (some f) (none : Option (Frame P X)) false iq kq k g x m n‖ ^ 2 =
      ∑ x, ∑ a, ∑ b, ‖g x a b‖ ^ 2) ∧
    (∑ nu : v.B, ∑ a : O, ∑ b : O, ‖toBands (none : Option (Frame K O)) (some v) false iq kq k g nu a b‖ ^ 2 =
      ∑ x, ∑ a, ∑ b, ‖g x a b‖ ^ 2) := by
  have h1 : ∑ x : X, ∑ m : f.B, ∑ n : f.B, ‖rotate (some f) kq k g x m n‖ ^ 2 = ∑ x, ∑ a, ∑ b, ‖g x a b‖ ^ 2 :=
    Finset.sum_congr rfl fun x _ => rotate_norm f h kq k g x
  have h2 : ∀ {I : Type} [Fintype I] (G : X → I → I → ℂ),
      ∑ nu : v.B, ∑ a, ∑ b, ‖polarize (some v) iq G nu a b‖ ^ 2 = ∑ x, ∑ a, ∑ b, ‖G x a b‖ ^ 2 := by
    intro I _ G
    rw [Finset.sum_comm, Finset.sum_comm (s := (Finset.univ : Finset X))]
    refine Finset.sum_congr rfl fun a _ => ?_
    rw [Finset.sum_comm, Finset.sum_comm (s := (Finset.univ : Finset X))]
    exact Finset.sum_congr rfl fun b _ => polarize_norm v hv iq G a b
  refine ⟨?_, ?_, ?_⟩
  · unfold toBands square
    simp only [Bool.false_eq_true, if_false]
    exact (h2 (I := f.B) (rotate (some f) kq k g)).trans h1
  · unfold toBands square
    simp only [Bool.false_eq_true, if_false]
    exact h1
  · unfold toBands square
    simp only [Bool.false_eq_true, if_false]
    exact h2 (I := O) g

end

section
variable {X O P K : Type} [Fintype X] [Fintype O]

/-- C117: with `squared`, the result is the squared modulus of the result without. -/
theorem C117_squared (U : Option (Frame K O)) (u : Option (Frame P X)) (iq : P) (kq k : K) (g : X → O → O → ℂ)
    (nu : Frame.Index u) (m n : Frame.Index U) :
    toBands U u true iq kq k g nu m n = ((‖toBands U u false iq kq k g nu m n‖ ^ 2 : ℝ) : ℂ) := by
  unfold toBands square
  simp only [if_true, Bool.false_eq_true, if_false]
  rw [Complex.star_def, Complex.mul_conj']
  norm_cast

/-- C117: phases of the eigenvectors do not change the squared modulus. -/
theorem C117_phase (f : Frame K O) (v : Frame P X) (p : K → f.B → ℂ) (r : P → v.B → ℂ) (hp : ∀ k m, ‖p k m‖ = 1)
    (hr : ∀ q nu, ‖r q nu‖ = 1) (iq : P) (kq k : K) (g : X → O → O → ℂ) (nu : v.B) (m n : f.B) :
    toBands (some ⟨f.B, fun k a m => f.U k a m * p k m⟩) (some ⟨v.B, fun q x nu => v.U q x nu * r q nu⟩) true iq kq k g nu m n =
    toBands (some f) (some v) true iq kq k g nu m n := by
  rw [C117_squared, C117_squared]
  have e : toBands (some ⟨f.B, fun k a m => f.U k a m * p k m⟩) (some ⟨v.B, fun q x nu => v.U q x nu * r q nu⟩) false iq kq k g nu m n =
      star (p kq m) * p k n * r iq nu * toBands (some f) (some v) false iq kq k g nu m n := by
    unfold toBands square polarize rotate
    simp only [Bool.false_eq_true, if_false, Finset.mul_sum, Finset.sum_mul]
    refine Finset.sum_congr rfl fun x _ => Finset.sum_congr rfl fun a _ => Finset.sum_congr rfl fun b _ => ?_
    rw [star_mul']
    ring
  rw [e, norm_mul, norm_mul, norm_mul, norm_star, hp, hp, hr]
  simp

variable {nq : Nat} {n : Nat} [NeZero n]

/-- The mesh of `transform` as a mesh of `sample`. -/
def Frame.flat (f : Frame (Fin n × Fin n) O) : Frame (Mesh n n 1) O := ⟨f.B, fun k => f.U (k.1, k.2.1)⟩

/-- C117: transforming a sampled coupling gives the same as sampling the transformed coupling. -/
theorem C117_sample (g : (Fin 3 → ℝ) → (Fin 3 → ℝ) → X → O → O → ℂ) (q : Fin nq → Fin 2 → ℝ) (f : Frame (Fin n × Fin n) O)
    (u : Option (Frame (Fin nq) X)) (squared : Bool) (iq : Fin nq) (nu : Frame.Index u) (k : Fin n × Fin n) (m m' : f.B) :
    transformOne (fun iq x k => sampleOne g (fun iq => ![q iq 0, q iq 1, 0]) (none : Option (Frame (Mesh n n 1) O))
      (none : Option (Frame (Fin nq) X)) false iq x (k.1, k.2, 0)) q (some f) u squared iq nu k m m' =
    sampleOne g (fun iq => ![q iq 0, q iq 1, 0]) (some f.flat) u squared iq nu (k.1, k.2, 0) m m' := by
  rfl

/-- C117: the result does not depend on the number of processes. -/
theorem C117_processes (size : Nat) (hs : 0 < size) (g : Fin nq → X → Fin n × Fin n → O → O → ℂ) (q : Fin nq → Fin 2 → ℝ)
    (U : Option (Frame (Fin n × Fin n) O)) (u : Option (Frame (Fin nq) X)) (squared : Bool) :
    transform size g q U u squared = some ((List.finRange nq).map (transformOne g q U u squared)) :=
  Verif.MPI.C02_parMap size hs _ _

/-- C117: the states connected by the coupling differ by the wave vector `q` (modulo reciprocal lattice vectors). -/
theorem C117_momentum (g : Fin nq → X → Fin n × Fin n → O → O → ℂ) (q : Fin nq → Fin 2 → ℝ)
    (U : Option (Frame (Fin n × Fin n) O)) (u : Option (Frame (Fin nq) X)) (squared : Bool) (iq : Fin nq) (nu : Frame.Index u)
    (k j : Fin n × Fin n) (z : Fin 2 → ℤ) (h0 : q iq 0 = 2 * Real.pi * (((j.1 : ℕ) : ℝ) / n + z 0))
    (h1 : q iq 1 = 2 * Real.pi * (((j.2 : ℕ) : ℝ) / n + z 1)) :
    transformOne g q U u squared iq nu k = toBands U u squared iq (k + j) k (fun x => g iq x k) nu := by
  have key : ∀ (a b : Fin n) (y : ℤ), wrap a (roundEven (2 * Real.pi * (((b : ℕ) : ℝ) / n + y) / (2 * Real.pi / (n : Nat)))) = a + b := by
    intro a b y
    have hn : (n : ℝ) ≠ 0 := Nat.cast_ne_zero.2 (NeZero.ne n)
    have hpi := Real.pi_ne_zero
    have h : 2 * Real.pi * (((b : ℕ) : ℝ) / n + y) / (2 * Real.pi / (n : Nat)) = (((b : ℕ) + y * n : ℤ) : ℝ) := by
      push_cast
      field_simp
    rw [h, roundEven_int]
    apply Fin.ext
    simp only [wrap, Fin.val_add]
    rw [← add_assoc, Int.add_mul_emod_self_right, ← Nat.cast_add, ← Int.natCast_mod, Int.toNat_natCast]
  unfold transformOne
  simp only [h0, h1, key]
  rfl

/-- C117 (input): the argument is left alone unless the squared modulus is taken without a change of the basis.
Missing: that last case, see `C117_input_violated`. -/
theorem C117_input_partial (mine : List (Fin nq)) (g : Fin nq → X → Fin n × Fin n → O → O → ℂ)
    (U : Option (Frame (Fin n × Fin n) O)) (u : Option (Frame (Fin nq) X)) (squared : Bool)
    (h : squared = false ∨ U.isSome = true ∨ u.isSome = true) : argumentAfter mine g U u squared = g := by
  funext iq x k a b
  unfold argumentAfter
  rw [if_neg]
  rintro ⟨-, h1, h2, h3⟩
  rcases h with h | h | h
  · rw [h] at h1
    exact Bool.false_ne_true h1
  · rw [Option.isNone_iff_eq_none.1 h2] at h
    simp at h
  · rw [Option.isNone_iff_eq_none.1 h3] at h
    simp at h

end

/-- C117 (input): taking the squared modulus without a change of the basis destroys the argument, so that a second call gives
the fourth power. -/
theorem C117_input_violated : ∃ g : Fin 1 → Fin 1 → Fin 1 × Fin 1 → Fin 1 → Fin 1 → ℂ,
    argumentAfter [0] g none none true ≠ g ∧
    ∀ q, transformOne g q none none true 0 (0 : Fin 1) 0 (0 : Fin 1) (0 : Fin 1) = 4 ∧
      transformOne (argumentAfter [0] g none none true) q none none true 0 (0 : Fin 1) 0 (0 : Fin 1) (0 : Fin 1) = 16 := by
  have e : argumentAfter [0] (fun (_ : Fin 1) (_ : Fin 1) (_ : Fin 1 × Fin 1) (_ _ : Fin 1) => (2 : ℂ)) none none true = fun _ _ _ _ _ => 4 := by
    funext iq x k a b
    simp [argumentAfter, Subsingleton.elim iq 0]
    norm_num
  refine ⟨fun _ _ _ _ _ => 2, ?_, fun q => ⟨?_, ?_⟩⟩
  · rw [e]
    intro h
    have := congrFun (congrFun (congrFun (congrFun (congrFun h 0) 0) 0) 0) 0
    norm_num at this
  · simp [transformOne, toBands, square, polarize, rotate]
    norm_num
  · rw [e]
    simp [transformOne, toBands, square, polarize, rotate]
    norm_num

/-- Example: a rotation of two orbitals. -/
example (g : Fin 1 → Fin 2 → Fin 2 → ℂ) : ∑ x : Fin 1, ∑ m : Fin 2, ∑ n : Fin 2,
    ‖toBands (some (⟨Fin 2, fun _ => !![(3 / 5 : ℂ), 4 / 5; -4 / 5, 3 / 5]⟩ : Frame (Fin 2) (Fin 2))) (none : Option (Frame (Fin 1) (Fin 1)))
      false 0 1 0 g x m n‖ ^ 2 = ∑ x, ∑ a, ∑ b, ‖g x a b‖ ^ 2 := by
  refine (C117_norm (⟨Fin 2, fun _ => !![(3 / 5 : ℂ), 4 / 5; -4 / 5, 3 / 5]⟩ : Frame (Fin 2) (Fin 2))
    (⟨Fin 1, fun _ => 1⟩ : Frame (Fin 1) (Fin 1)) (fun k => ?_) (fun q => by simp) 0 1 0 g).2.1
  ext i j
  have h3 : (starRingEnd ℂ) 3 = 3 := Complex.conj_ofNat 3
  have h4 : (starRingEnd ℂ) 4 = 4 := Complex.conj_ofNat 4
  have h5 : (starRingEnd ℂ) 5 = 5 := Complex.conj_ofNat 5
  fin_cases i <;> fin_cases j <;> simp [mul_apply, Fin.sum_univ_two, conjTranspose_apply, h3, h4, h5] <;> norm_num

/-- Example: `q = pi` on a mesh of two points connects the point 0 with the point 1. -/
example : wrap (0 : Fin 2) 1 = 1 ∧ wrap (1 : Fin 2) 1 = 0 ∧ wrap (0 : Fin 2) (-1) = 1 := by decide

end Verif.ElPh
