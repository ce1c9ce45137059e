import Mathlib.Data.Complex.BigOperators
import Mathlib.Algebra.BigOperators.Field
import Verif.MD.Props

/-!
# Electron density: `density` and `density_per_atom` of `elphmod/md.py` 597-629
-/

namespace Verif.MD

open Verif.Diag Matrix

variable {n1 n2 n3 nb nat nq : Nat}

/-- `elphmod/md.py` 597-607 (`density`). -/
noncomputable def Driver.density (occ : ℝ → ℝ) (s : Driver n1 n2 n3 nb nat nq) (a : Fin nb) : ℝ :=
  2 * ∑ n, (∑ k, ‖s.U k a n‖ ^ 2 * occ (s.e k n / s.kT)) / (n1 * n2 * n3 : Nat)

/-- `rho_at[na::nat] += rho_orb[no::norb]` in `elphmod/md.py` 627 for arrays of `cells * nat` and `cells * norb` elements. -/
def addSlice (nat norb na no : Nat) (rho : Nat → ℝ) (at_ : Nat → ℝ) (i : Nat) : ℝ :=
  if i % nat = na then at_ i + rho (i / nat * norb + no) else at_ i

/-- `elphmod/md.py` 609-629 (`density_per_atom`) for `cells` primitive cells. -/
def densityPerAtom (norb : Nat) (basis : List (List Nat)) (rho : Nat → ℝ) : Nat → ℝ :=
  (basis.zipIdx.flatMap fun p => p.1.map fun no => (p.2, no)).foldl
    (fun at_ p => addSlice basis.length norb p.1 p.2 rho at_) fun _ => 0

/-! ### Number of electrons -/

theorem column_norm (U : Matrix (Fin nb) (Fin nb) ℂ) (h : Uᴴ * U = 1) (n : Fin nb) : ∑ a, ‖U a n‖ ^ 2 = 1 := by
  have h1 := congrFun (congrFun h n) n
  rw [mul_apply, one_apply_eq] at h1
  have h2 : ∑ a, ((‖U a n‖ ^ 2 : ℝ) : ℂ) = 1 := by
    rw [← h1]
    refine Finset.sum_congr rfl fun a _ => ?_
    rw [conjTranspose_apply, Complex.star_def, Complex.conj_mul', Complex.ofReal_pow]
  exact_mod_cast h2

theorem row_norm (U : Matrix (Fin nb) (Fin nb) ℂ) (h : Uᴴ * U = 1) (a : Fin nb) : ∑ n, ‖U a n‖ ^ 2 = 1 := by
  have h0 : U * Uᴴ = 1 := mul_eq_one_comm.1 h
  have h1 := congrFun (congrFun h0 a) a
  rw [mul_apply, one_apply_eq] at h1
  have h2 : ∑ n, ((‖U a n‖ ^ 2 : ℝ) : ℂ) = 1 := by
    rw [← h1]
    refine Finset.sum_congr rfl fun n _ => ?_
    rw [conjTranspose_apply, Complex.star_def, Complex.mul_conj', Complex.ofReal_pow]
  exact_mod_cast h2

/-- C114: the densities of all orbitals add up to the number of electrons. -/
theorem C114_total (occ : ℝ → ℝ) (s : Driver n1 n2 n3 nb nat nq) (h : Diagonalized occ s) : ∑ a, s.density occ a = s.n := by
  rw [← h.number]
  unfold Driver.density
  rw [← Finset.mul_sum, Finset.sum_comm]
  simp only [← Finset.sum_div]
  rw [mul_div_assoc', div_mul_eq_mul_div]
  congr 2
  calc _ = ∑ n, ∑ k, ∑ a, ‖s.U k a n‖ ^ 2 * occ (s.e k n / s.kT) :=
        Finset.sum_congr rfl fun n _ => Finset.sum_comm
    _ = ∑ n, ∑ k, occ (s.e k n / s.kT) := by
        refine Finset.sum_congr rfl fun n _ => Finset.sum_congr rfl fun k _ => ?_
        rw [← Finset.sum_mul, column_norm _ (h.unitary k), one_mul]
    _ = _ := Finset.sum_comm

/-- C114: no orbital holds less than zero or more than two electrons. -/
theorem C114_pauli [NeZero n1] [NeZero n2] [NeZero n3] (occ : ℝ → ℝ) (hocc : ∀ x, 0 ≤ occ x ∧ occ x ≤ 1)
    (s : Driver n1 n2 n3 nb nat nq) (h : ∀ k, (s.U k)ᴴ * s.U k = 1) (a : Fin nb) :
    0 ≤ s.density occ a ∧ s.density occ a ≤ 2 := by
  unfold Driver.density
  have hpos : (0 : ℝ) < (n1 * n2 * n3 : Nat) := by
    have := Nat.pos_of_ne_zero (NeZero.ne n1)
    have := Nat.pos_of_ne_zero (NeZero.ne n2)
    have := Nat.pos_of_ne_zero (NeZero.ne n3)
    exact_mod_cast (by positivity)
  constructor
  · refine mul_nonneg (by norm_num) (Finset.sum_nonneg fun n _ => div_nonneg (Finset.sum_nonneg fun k _ => ?_) hpos.le)
    exact mul_nonneg (sq_nonneg _) (hocc _).1
  · rw [← Finset.sum_div, Finset.sum_comm]
    have h1 : ∑ k, ∑ n, ‖s.U k a n‖ ^ 2 * occ (s.e k n / s.kT) ≤ ∑ _k : Mesh n1 n2 n3, (1 : ℝ) := by
      refine Finset.sum_le_sum fun k _ => ?_
      rw [← row_norm _ (h k) a]
      exact Finset.sum_le_sum fun n _ => mul_le_of_le_one_right (sq_nonneg _) (hocc _).2
    have h2 : ∑ _k : Mesh n1 n2 n3, (1 : ℝ) = (n1 * n2 * n3 : Nat) := by
      rw [Finset.sum_const, nsmul_eq_mul, mul_one, Finset.card_univ]
      simp [Fintype.card_prod, mul_assoc]
    rw [h2] at h1
    have : (∑ k, ∑ n, ‖s.U k a n‖ ^ 2 * occ (s.e k n / s.kT)) / (n1 * n2 * n3 : Nat) ≤ 1 := (div_le_one hpos).2 h1
    linarith

/-- A function of a matrix does not depend on the choice of eigenvectors. -/
theorem spectral_choice {ι : Type} [Fintype ι] [DecidableEq ι] (H U V : Matrix ι ι ℂ) (e : ι → ℝ) (hU : Uᴴ * U = 1) (hV : Vᴴ * V = 1)
    (h1 : H * U = U * diagonal fun n => (e n : ℂ)) (h2 : H * V = V * diagonal fun n => (e n : ℂ)) (f : ℝ → ℝ) :
    U * diagonal (fun n => (f (e n) : ℂ)) * Uᴴ = V * diagonal (fun n => (f (e n) : ℂ)) * Vᴴ := by
  have hU' : U * Uᴴ = 1 := mul_eq_one_comm.1 hU
  have hV' : V * Vᴴ = 1 := mul_eq_one_comm.1 hV
  set W := Vᴴ * U with hW
  have hc : diagonal (fun n => (e n : ℂ)) * W = W * diagonal fun n => (e n : ℂ) := by
    have h3 : Vᴴ * H = diagonal (fun n => (e n : ℂ)) * Vᴴ := by
      calc Vᴴ * H = Vᴴ * H * (V * Vᴴ) := by rw [hV', Matrix.mul_one]
        _ = Vᴴ * (H * V) * Vᴴ := by noncomm_ring
        _ = (Vᴴ * V) * diagonal (fun n => (e n : ℂ)) * Vᴴ := by rw [h2]; noncomm_ring
        _ = _ := by rw [hV, Matrix.one_mul]
    calc diagonal (fun n => (e n : ℂ)) * W = diagonal (fun n => (e n : ℂ)) * Vᴴ * U := by rw [hW]; noncomm_ring
      _ = Vᴴ * (H * U) := by rw [← h3]; noncomm_ring
      _ = _ := by rw [h1, hW]; noncomm_ring
  have hf : diagonal (fun n => (f (e n) : ℂ)) * W = W * diagonal fun n => (f (e n) : ℂ) := by
    ext i j
    have := congrFun (congrFun hc i) j
    rw [diagonal_mul, mul_diagonal] at this ⊢
    by_cases h : e i = e j
    · rw [h, mul_comm]
    · have hz : W i j = 0 := by
        have h5 : ((e i : ℂ) - e j) * W i j = 0 := by rw [sub_mul, this]; ring
        rcases mul_eq_zero.1 h5 with h6 | h6
        · exact absurd (by exact_mod_cast sub_eq_zero.1 h6) h
        · exact h6
      rw [hz]
      ring
  have hVW : V * W = U := by rw [hW, ← Matrix.mul_assoc, hV', Matrix.one_mul]
  have hWW : W * Wᴴ = 1 := by
    rw [hW, conjTranspose_mul, conjTranspose_conjTranspose]
    calc Vᴴ * U * (Uᴴ * V) = Vᴴ * (U * Uᴴ) * V := by noncomm_ring
      _ = 1 := by rw [hU', Matrix.mul_one, hV]
  calc U * diagonal (fun n => (f (e n) : ℂ)) * Uᴴ =
        V * (W * diagonal (fun n => (f (e n) : ℂ))) * Wᴴ * Vᴴ := by
          rw [← hVW, conjTranspose_mul]
          noncomm_ring
      _ = V * diagonal (fun n => (f (e n) : ℂ)) * (W * Wᴴ) * Vᴴ := by rw [← hf]; noncomm_ring
      _ = _ := by rw [hWW, Matrix.mul_one]

/-- The weighted sum over the eigenvectors does not depend on their choice. -/
theorem eigenvector_choice (H U V : Matrix (Fin nb) (Fin nb) ℂ) (e : Fin nb → ℝ) (hU : Uᴴ * U = 1) (hV : Vᴴ * V = 1)
    (h1 : H * U = U * diagonal fun n => (e n : ℂ)) (h2 : H * V = V * diagonal fun n => (e n : ℂ)) (f : ℝ → ℝ) (a : Fin nb) :
    ∑ n, ‖U a n‖ ^ 2 * f (e n) = ∑ n, ‖V a n‖ ^ 2 * f (e n) := by
  have hd : ∀ W : Matrix (Fin nb) (Fin nb) ℂ, (W * diagonal (fun n => (f (e n) : ℂ)) * Wᴴ) a a =
      ((∑ n, ‖W a n‖ ^ 2 * f (e n) : ℝ) : ℂ) := by
    intro W
    rw [mul_apply, Complex.ofReal_sum]
    refine Finset.sum_congr rfl fun n _ => ?_
    rw [mul_diagonal, conjTranspose_apply, Complex.star_def, mul_right_comm, Complex.mul_conj', Complex.ofReal_mul,
      Complex.ofReal_pow]
  have := congrFun (congrFun (spectral_choice H U V e hU hV h1 h2 f) a) a
  rw [hd, hd] at this
  exact_mod_cast this

/-- C114: the density is determined by the Hamiltonian and the chemical potential; the choice of eigenvectors (of phases and of
bases of degenerate subspaces) does not matter. -/
theorem C114_gauge (occ : ℝ → ℝ) (s t : Driver n1 n2 n3 nb nat nq) (hs : Diagonalized occ s) (ht : Diagonalized occ t)
    (hH : ∀ k, s.H k = t.H k) (hT : s.kT = t.kT) (hmu : s.mu = t.mu) (he : s.e = t.e) (a : Fin nb) :
    s.density occ a = t.density occ a := by
  unfold Driver.density
  simp only [← Finset.sum_div]
  rw [Finset.sum_comm, Finset.sum_comm (f := fun n k => ‖t.U k a n‖ ^ 2 * occ (t.e k n / t.kT))]
  congr 2
  refine Finset.sum_congr rfl fun k _ => ?_
  have h1 := hs.eig k
  have h2 := ht.eig k
  rw [hH k, he, hmu] at h1
  have := eigenvector_choice (t.H k) (s.U k) (t.U k) (fun n => t.e k n + t.mu) (hs.unitary k) (ht.unitary k) h1 h2
    (fun x => occ ((x - t.mu) / t.kT)) a
  simp only [add_sub_cancel_right] at this
  rw [he, hT]
  exact this

/-! ### Atoms -/

theorem foldl_addSlice (nat norb : Nat) (rho : Nat → ℝ) (l : List (Nat × Nat)) (at_ : Nat → ℝ) (i : Nat) :
    l.foldl (fun at_ p => addSlice nat norb p.1 p.2 rho at_) at_ i =
      at_ i + ((l.filter fun p => p.1 = i % nat).map fun p => rho (i / nat * norb + p.2)).sum := by
  induction l generalizing at_ with
  | nil => simp
  | cons p l ih =>
    rw [List.foldl_cons, ih]
    unfold addSlice
    by_cases h : i % nat = p.1
    · rw [if_pos h, List.filter_cons_of_pos (by simp [h])]
      simp [add_assoc]
    · rw [if_neg h, List.filter_cons_of_neg (by simpa using fun e => h e.symm)]

theorem filter_basis (basis : List (List Nat)) (m na : Nat) (o : List Nat) (h : basis[na]? = some o) :
    ((basis.zipIdx m).flatMap fun p => p.1.map fun no => (p.2, no)).filter (fun p => p.1 = m + na) = o.map fun no => (m + na, no) := by
  induction basis generalizing m na with
  | nil => simp at h
  | cons b basis ih =>
    rw [List.zipIdx_cons, List.flatMap_cons, List.filter_append]
    cases na with
    | zero =>
      simp only [List.getElem?_cons_zero, Option.some.injEq] at h
      have h1 : (List.map (fun no => (m, no)) b).filter (fun p => p.1 = m + 0) = List.map (fun no => (m, no)) b := by
        rw [List.filter_eq_self]
        simp
      have h2 : ((basis.zipIdx (m + 1)).flatMap fun p => p.1.map fun no => (p.2, no)).filter (fun p => p.1 = m + 0) = [] := by
        rw [List.filter_eq_nil_iff]
        intro p hp
        simp only [List.mem_flatMap, List.mem_map] at hp
        obtain ⟨q, hq, no, -, rfl⟩ := hp
        have := List.le_snd_of_mem_zipIdx hq
        simp only [decide_eq_true_eq]
        omega
      rw [h1, h2, h]
      simp
    | succ na =>
      rw [List.getElem?_cons_succ] at h
      have h1 : (List.map (fun no => (m, no)) b).filter (fun p => p.1 = m + (na + 1)) = [] := by
        rw [List.filter_eq_nil_iff]
        simp
      rw [h1, List.nil_append, show m + (na + 1) = m + 1 + na by omega]
      exact ih (m + 1) na h

/-- C114: the density at atom `na` of cell `c` is the sum of the densities of the orbitals that belong to it. -/
theorem C114_atom (norb : Nat) (basis : List (List Nat)) (rho : Nat → ℝ) (c na : Nat) (o : List Nat) (h : basis[na]? = some o) :
    densityPerAtom norb basis rho (c * basis.length + na) = (o.map fun no => rho (c * norb + no)).sum := by
  have hna : na < basis.length := (List.getElem?_eq_some_iff.1 h).1
  have h1 : (c * basis.length + na) % basis.length = na := by
    rw [Nat.mul_comm, Nat.mul_add_mod, Nat.mod_eq_of_lt hna]
  have h2 : (c * basis.length + na) / basis.length = c := by
    rw [Nat.mul_comm, Nat.mul_add_div (by omega), Nat.div_eq_of_lt hna, Nat.add_zero]
  unfold densityPerAtom
  rw [foldl_addSlice, h1, h2]
  have := filter_basis basis 0 na o h
  simp only [Nat.zero_add] at this
  rw [this, List.map_map, zero_add]
  rfl

theorem sum_cells (f : Nat → ℝ) (m c : Nat) : ∑ i ∈ Finset.range (c * m), f i = ∑ j ∈ Finset.range c, ∑ r ∈ Finset.range m, f (j * m + r) := by
  induction c with
  | zero => simp
  | succ c ih => rw [Nat.succ_mul, Finset.sum_range_add, ih, Finset.sum_range_succ]

theorem sum_range_list (f : Nat → ℝ) (n : Nat) : ∑ i ∈ Finset.range n, f i = ((List.range n).map f).sum := by
  induction n with
  | zero => simp
  | succ n ih => rw [Finset.sum_range_succ, ih, List.range_succ, List.map_append, List.sum_append]; simp

theorem sum_flatten (f : Nat → ℝ) (l : List (List Nat)) : (l.flatten.map f).sum = (l.map fun o => (o.map f).sum).sum := by
  induction l with
  | nil => simp
  | cons o l ih => rw [List.flatten_cons, List.map_append, List.sum_append, ih, List.map_cons, List.sum_cons]

/-- C114: if every orbital belongs to exactly one atom, the densities of all atoms add up to the number of electrons. -/
theorem C114_atoms (norb cells : Nat) (basis : List (List Nat)) (hb : basis.flatten.Perm (List.range norb)) (rho : Nat → ℝ) :
    ∑ i ∈ Finset.range (cells * basis.length), densityPerAtom norb basis rho i = ∑ i ∈ Finset.range (cells * norb), rho i := by
  rw [sum_cells, sum_cells]
  refine Finset.sum_congr rfl fun c _ => ?_
  rw [sum_range_list (fun r => rho (c * norb + r)), ← (hb.map _).sum_eq, sum_flatten, sum_range_list]
  congr 1
  refine List.ext_getElem (by simp) fun i h1 h2 => ?_
  simp only [List.length_map, List.length_range] at h1
  rw [List.getElem_map, List.getElem_map, List.getElem_range]
  exact C114_atom norb basis rho c i _ (List.getElem?_eq_getElem h1)

/-- Example: two cells with two atoms, the second one with orbitals 0 and 2. -/
example : densityPerAtom 3 [[1], [0, 2]] (fun i => i) (1 * 2 + 1) = 8 :=
  (C114_atom 3 [[1], [0, 2]] (fun i => i) 1 1 [0, 2] rfl).trans (by norm_num)

example : ([[1], [0, 2]] : List (List Nat)).flatten.Perm (List.range 3) := by decide

/-- Example: the path of `sample`. -/
example (t : ℝ) : ∑ a, (sample.move (sampleU t) (fun _ n => if n = 0 then t else -t) (fun _ => 1) t).density Verif.Occ.gauss a = 2 :=
  C114_total _ _ (sample_path.diag t)

end Verif.MD
