import Verif.MD.RepeatSupercond

/-!
# Superconductivity for sparse matrices (C156)
-/

namespace Verif.MD

open Matrix
open Verif.Diag Verif.Diag.Derivatives

variable {nb nat : Nat}

/-- `elphmod/md.py` 357-392 (`hessian`, sparse, with `kT`): Fermi-surface average of the coupling squared. Element `g2dd[x, y]` for
`x <= y`; the other ones are set equal. -/
noncomputable def Sparse.pairs (kT : ℝ) (delta : ℝ → ℝ) (s : Sparse nb nat) (x y : X nat) : ℝ :=
  let d := fun n => 2 * delta (s.e n / s.kT) / -s.kT
  let tmp := fun n => if kT = s.kT then d n else delta (s.e n / kT) / kT
  let dd := fun m n => tmp m * tmp n / ∑ m, ∑ n, tmp m * tmp n
  let V := s.U.transpose
  let gx : Matrix (Fin nb) (Fin nb) ℝ := V * (s.d0 x * s.U)
  let gxdd : Matrix (Fin nb) (Fin nb) ℝ := s.U * Matrix.of (fun m n => gx m n * dd m n) * V
  ∑ a, ∑ b, s.d0 y a b * gxdd a b

/-- `elphmod/md.py` 560-561: division by the square roots of the masses. -/
noncomputable def Sparse.massPairs (kT : ℝ) (delta : ℝ → ℝ) (M : Fin nat → ℝ) (s : Sparse nb nat) : Matrix (X nat) (X nat) ℝ := fun x y =>
  s.pairs kT delta x y * (1 / √(M y.1)) * (1 / √(M x.1))

/-- `elphmod/md.py` 546-593 (`superconductivity`, sparse); `w2` and `u` are the result of `np.linalg.eigh`. -/
noncomputable def Sparse.superconductivity (eps kT : ℝ) (delta : ℝ → ℝ) (M : Fin nat → ℝ) (s : Sparse nb nat) (w2 : X nat → ℝ)
    (u : Matrix (X nat) (X nat) ℝ) : ℝ × ℝ × ℝ :=
  averages eps ((∑ n, delta (s.e n / kT)) / kT / (1 * 1 * 1 : Nat)) (fun nu => (u.transpose * s.massPairs kT delta M * u) nu nu) w2

theorem pairs_eq (kT : ℝ) (delta : ℝ → ℝ) (s : Sparse nb nat) (x y : X nat) :
    s.pairs kT delta x y = ∑ m, ∑ n, (s.U.transpose * (s.d0 x * s.U)) m n * (s.U.transpose * (s.d0 y * s.U)) m n *
      ((delta (s.e m / kT) / kT * (delta (s.e n / kT) / kT)) / ∑ m, ∑ n, delta (s.e m / kT) / kT * (delta (s.e n / kT) / kT)) := by
  obtain ⟨c, hc, ht⟩ : ∃ c : ℝ, c ≠ 0 ∧ ∀ n, (if kT = s.kT then 2 * delta (s.e n / s.kT) / -s.kT else delta (s.e n / kT) / kT) =
      c * (delta (s.e n / kT) / kT) := by
    by_cases h : kT = s.kT
    · refine ⟨-2, by norm_num, fun n => ?_⟩
      rw [if_pos h, h, div_neg]
      ring
    · exact ⟨1, one_ne_zero, fun n => by rw [if_neg h, one_mul]⟩
  have hdd : ∀ m n, c * (delta (s.e m / kT) / kT) * (c * (delta (s.e n / kT) / kT)) /
      (∑ m, ∑ n, c * (delta (s.e m / kT) / kT) * (c * (delta (s.e n / kT) / kT))) =
      delta (s.e m / kT) / kT * (delta (s.e n / kT) / kT) / ∑ m, ∑ n, delta (s.e m / kT) / kT * (delta (s.e n / kT) / kT) := by
    intro m n
    have h1 : ∀ m n, c * (delta (s.e m / kT) / kT) * (c * (delta (s.e n / kT) / kT)) =
        c ^ 2 * (delta (s.e m / kT) / kT * (delta (s.e n / kT) / kT)) := fun m n => by ring
    simp only [h1, ← Finset.mul_sum]
    rw [mul_div_mul_left _ _ (pow_ne_zero 2 hc)]
  unfold Sparse.pairs
  simp only [ht, hdd]
  rw [contract]
  refine Finset.sum_congr rfl fun m _ => Finset.sum_congr rfl fun n _ => ?_
  rw [Matrix.of_apply]
  ring

/-- C156: sparse and dense calculations yield the same results. -/
theorem C156_sparse (eps kT : ℝ) (delta : ℝ → ℝ) (M : Fin nat → ℝ) (s : Sparse nb nat) (n mu : ℝ) (w2 : X nat → ℝ)
    (u : Matrix (X nat) (X nat) ℝ) : s.superconductivity eps kT delta M w2 u =
      (s.dense n mu).superconductivity eps kT delta M (fun _ => w2) fun _ => u.map Complex.ofReal := by
  have hq : ∀ iq, OnMesh ((s.dense n mu).q iq) (0 : Mesh 1 1 1) := fun iq => ⟨fun _ => 0, by simp [Sparse.dense]⟩
  have hd : ∀ (iq : Fin 1) x k m n', (s.dense n mu).d iq x k m n' = (((s.U.transpose * (s.d0 x * s.U)) m n' : ℝ) : ℂ) := by
    intro iq x k m n'
    rw [Repeat.d_coupling _ iq 0 (hq iq)]
    exact dense_band s n mu x k m n'
  have h0 : ∀ f : Mesh 1 1 1 → ℝ, ∑ k, f k = f 0 := fun f => Fintype.sum_eq_single 0 fun k hk => absurd (Subsingleton.elim k 0) hk
  have hdeno : ∑ iq, fsDeno kT delta (s.dense n mu).e ((s.dense n mu).q iq) =
      ∑ m, ∑ n, delta (s.e m / kT) / kT * (delta (s.e n / kT) / kT) := by
    rw [Fin.sum_univ_one]
    unfold fsDeno
    simp only [slice_q _ _ 0 _ (hq _), h0]
    rfl
  have henum : ∀ nu, fsEnum kT delta (s.dense n mu).e (modeCoupling ((s.dense n mu).d 0) M (u.map Complex.ofReal)) ((s.dense n mu).q 0) nu =
      ∑ m, ∑ n, (∑ x, (s.U.transpose * (s.d0 x * s.U)) m n * (1 / √(M x.1)) * u x nu) ^ 2 * (delta (s.e m / kT) / kT * (delta (s.e n / kT) / kT)) := by
    intro nu
    unfold fsEnum
    simp only [slice_q _ _ 0 _ (hq _), h0]
    refine Finset.sum_congr rfl fun m _ => Finset.sum_congr rfl fun n' _ => ?_
    congr 1
    unfold modeCoupling
    simp only [hd, Matrix.map_apply]
    have e : ∑ x, (((s.U.transpose * (s.d0 x * s.U)) m n' : ℝ) : ℂ) * ((1 / √(M x.1) : ℝ) : ℂ) * ((u x nu : ℝ) : ℂ) =
        ((∑ x, (s.U.transpose * (s.d0 x * s.U)) m n' * (1 / √(M x.1)) * u x nu : ℝ) : ℂ) := by
      rw [Complex.ofReal_sum]
      exact Finset.sum_congr rfl fun x _ => by rw [Complex.ofReal_mul, Complex.ofReal_mul]
    rw [show (∑ x, (((s.U.transpose * (s.d0 x * s.U)) m n' : ℝ) : ℂ) * ((1 / √(M x.1) : ℝ) : ℂ) * Complex.ofReal (u x nu)) = _ from e,
      Complex.norm_real, Real.norm_eq_abs, sq_abs]
  have hmode : ∀ nu, (u.transpose * s.massPairs kT delta M * u) nu nu =
      fsEnum kT delta (s.dense n mu).e (modeCoupling ((s.dense n mu).d 0) M (u.map Complex.ofReal)) ((s.dense n mu).q 0) nu /
        ∑ iq, fsDeno kT delta (s.dense n mu).e ((s.dense n mu).q iq) := by
    intro nu
    rw [henum, hdeno]
    have e1 : (u.transpose * s.massPairs kT delta M * u) nu nu = ∑ y, ∑ x, ∑ m, ∑ n, (s.U.transpose * (s.d0 x * s.U)) m n * (1 / √(M x.1)) * u x nu *
        ((s.U.transpose * (s.d0 y * s.U)) m n * (1 / √(M y.1)) * u y nu) * ((delta (s.e m / kT) / kT * (delta (s.e n / kT) / kT)) /
          ∑ m, ∑ n, delta (s.e m / kT) / kT * (delta (s.e n / kT) / kT)) := by
      rw [Matrix.mul_apply]
      refine Finset.sum_congr rfl fun y _ => ?_
      rw [Matrix.mul_apply, Finset.sum_mul]
      refine Finset.sum_congr rfl fun x _ => ?_
      unfold Sparse.massPairs
      rw [pairs_eq, Matrix.transpose_apply, Finset.sum_mul, Finset.sum_mul, Finset.mul_sum, Finset.sum_mul]
      refine Finset.sum_congr rfl fun m _ => ?_
      rw [Finset.sum_mul, Finset.sum_mul, Finset.mul_sum, Finset.sum_mul]
      exact Finset.sum_congr rfl fun n _ => by ring
    rw [e1, Finset.sum_div]
    have swap : ∀ f : X nat → Fin nb → Fin nb → ℝ, ∑ y, ∑ m, ∑ n, f y m n = ∑ m, ∑ n, ∑ y, f y m n := by
      intro f
      rw [Finset.sum_comm]
      refine Finset.sum_congr rfl fun m _ => ?_
      rw [Finset.sum_comm]
    simp only [swap]
    refine Finset.sum_congr rfl fun m _ => ?_
    rw [Finset.sum_div]
    refine Finset.sum_congr rfl fun n _ => ?_
    rw [mul_div_assoc ((∑ x, _) ^ 2)]
    generalize delta (s.e m / kT) / kT * (delta (s.e n / kT) / kT) / (∑ m, ∑ n, delta (s.e m / kT) / kT * (delta (s.e n / kT) / kT)) = N
    rw [pow_two, Finset.sum_mul_sum, Finset.sum_mul]
    refine Finset.sum_comm.trans (Finset.sum_congr rfl fun x _ => ?_)
    rw [Finset.sum_mul]
  unfold Sparse.superconductivity Driver.superconductivity
  simp only [hmode]
  have hav : ∀ (N : ℝ) (f w : X nat → ℝ), averages eps N f w = averages eps N (fun i : Fin (0 + 1) × X nat => f i.2) fun i => w i.2 := by
    intro N f w
    rw [averages_eq, averages_eq]
    have hs : ∀ f : Fin (0 + 1) × X nat → ℝ, ∑ i, f i = ∑ x, f (0, x) := by
      intro f
      rw [Fintype.sum_prod_type]
      exact Fin.sum_univ_one _
    simp only [hs]
    rfl
  rw [hav, h0]
  congr 1

/-- Example: one orbital and one atom. -/
example (eps kT : ℝ) (delta : ℝ → ℝ) (s : Sparse 1 1) :
    s.superconductivity eps kT delta (fun _ => 1) (fun _ => 4) 1 =
      (s.dense 1 0).superconductivity eps kT delta (fun _ => 1) (fun _ _ => 4) fun _ => (1 : Matrix (X 1) (X 1) ℝ).map Complex.ofReal :=
  C156_sparse eps kT delta _ s 1 0 _ 1

end Verif.MD
