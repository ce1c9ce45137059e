import Verif.ElPh.Props
import Verif.ElPh.LongRange
import Verif.Fourier.Props
import Verif.Voronoi.Props

/-!
# Range separation of the electron-phonon coupling: `sample_orig` and `update_short_range` in `elphmod/elph.py`

The lattice vectors and degeneracies of the model are those of Wigner-Seitz cells for given positions of orbitals and atoms
(`elph.q2r` with `r`), on the same meshes.
-/

namespace Verif.ElPh

open Verif.Lattice (V3)
open Verif.Fourier (phase meshK elphQ2r coupling)
open Verif.Voronoi (IsMesh wigner bondLength mesh3)
open Verif.Phon (Polar gList zMass qMass)

/-- Numbers of points of the meshes, structure and parameters of the model which are not changed. -/
structure Setting (n p : Nat) where
  size : Nat
  nq : Nat × Nat × Nat
  nk : Nat × Nat × Nat
  a : Fin 3 → Fin 3 → ℝ
  r : Fin n → Fin 3 → ℝ
  τ : Fin p → Fin 3 → ℝ
  M : Fin p → ℝ
  divideMass : Bool

variable {n p : Nat}

/-- Lattice vectors `Rg` with degeneracies, `elphmod/elph.py` 1058-1061. -/
noncomputable def Setting.Lg (s : Setting n p) : List (V3 × (Fin n → Fin p → Nat)) :=
  wigner s.size s.nq.1 s.nq.2.1 s.nq.2.2 s.a s.r s.τ (1e-7) 1 2

/-- Lattice vectors `Rk` with degeneracies, `elphmod/elph.py` 1063-1065. -/
noncomputable def Setting.Lk (s : Setting n p) : List (V3 × (Fin n → Fin n → Nat)) :=
  wigner s.size s.nk.1 s.nk.2.1 s.nk.2.2 s.a s.r s.r (1e-7) 1 2

/-- `elphmod/elph.py` 1009-1092: `q2r(self, self.ph.nq, self.el.nk, g, None, self.divide_mass)` for lattice vectors of Wigner-Seitz
cells, which are not changed. -/
noncomputable def Setting.q2r (s : Setting n p) (g : V3 → Fin p × Fin 3 → V3 → Fin n → Fin n → ℂ) :
    Coupling (Fin p × Fin 3) (Fin n) where
  ng := s.Lg.length
  nk := s.Lk.length
  Rg i := (s.Lg.get i).1
  Rk j := (s.Lk.get j).1
  data i x j a b := (elphQ2r s.size s.nq.1 s.nq.2.1 s.nq.2.2 s.nk.1 s.nk.2.1 s.nk.2.2 s.a s.r s.τ s.M s.divideMass s.divideMass g).2.2
    (s.Lg.get i) x (s.Lk.get j) a b

/-- State of the object with lattice vectors of Wigner-Seitz cells, long-range term and cache; `elphmod/elph.py` 301, 307:
`self.Rk0`. -/
noncomputable def Setting.state (s : Setting n p) (g : V3 → Fin p × Fin 3 → V3 → Fin n → Fin n → ℂ)
    (lr : Option ((Fin 3 → ℝ) → Fin p × Fin 3 → ℂ)) (q : Option (Fin 3 → ℝ)) (gq : Fin p × Fin 3 → Fin s.Lk.length → Fin n → Fin n → ℂ) :
    State (Fin p × Fin 3) (Fin n) where
  c := s.q2r g
  lr := lr
  Rk0 := vectorIndex (s.q2r g).Rk (0, 0, 0)
  q := q
  gq := gq

/-- `elphmod/elph.py` 343-353 (`sample_orig`): coupling on the meshes. -/
noncomputable def Setting.sampleOrig (s : Setting n p) (st : State (Fin p × Fin 3) (Fin n)) (mq : V3) (x : Fin p × Fin 3) (mk : V3)
    (a b : Fin n) : ℂ :=
  (g { st with q := none } (meshK s.nq.1 s.nq.2.1 s.nq.2.2 mq) (meshK s.nk.1 s.nk.2.1 s.nk.2.2 mk)).2 x a b

/-- `elphmod/elph.py` 355-383 (`update_short_range`): the long-range term (if any) for the new parameters is subtracted from the
diagonal elements. The cache is kept. -/
noncomputable def Setting.update (s : Setting n p) (g0 : V3 → Fin p × Fin 3 → V3 → Fin n → Fin n → ℂ)
    (lr : Option ((Fin 3 → ℝ) → Fin p × Fin 3 → ℂ)) (q : Option (Fin 3 → ℝ)) (gq : Fin p × Fin 3 → Fin s.Lk.length → Fin n → Fin n → ℂ) :
    State (Fin p × Fin 3) (Fin n) :=
  s.state (fun mq x mk a b => g0 mq x mk a b - match lr with
    | none => 0
    | some f => if a = b then f (meshK s.nq.1 s.nq.2.1 s.nq.2.2 mq) x else 0) lr q gq

theorem sum_getList {β : Type} (l : List β) (f : β → ℂ) : ∑ i : Fin l.length, f (l.get i) = (l.map f).sum := by
  rw [← List.sum_ofFn]
  congr 1
  apply List.ext_getElem
  · simp
  · intro i h1 h2
    simp

theorem fourier_q2r (s : Setting n p) (hs : 0 < s.size) (g : V3 → Fin p × Fin 3 → V3 → Fin n → Fin n → ℂ) (mq mk : V3)
    (hq : IsMesh s.nq.1 s.nq.2.1 s.nq.2.2 mq) (hk : IsMesh s.nk.1 s.nk.2.1 s.nk.2.2 mk) (x : Fin p × Fin 3) (a b : Fin n) :
    fourier (s.q2r g) (meshK s.nq.1 s.nq.2.1 s.nq.2.2 mq) (meshK s.nk.1 s.nk.2.1 s.nk.2.2 mk) x a b = g mq x mk a b := by
  have h := Verif.Fourier.C28_elph s.size hs s.nq.1 s.nq.2.1 s.nq.2.2 s.nk.1 s.nk.2.1 s.nk.2.2 s.a s.r s.τ s.M s.divideMass
    s.divideMass g mq mk hq hk x a b
  simp only at h
  have h := h.trans (show _ = g mq x mk a b by cases s.divideMass <;> exact one_mul _)
  rw [← h, coupling, fourier, Finset.sum_comm]
  have h1 := sum_getList s.Lk fun ek => (s.Lg.map fun eg => (elphQ2r s.size s.nq.1 s.nq.2.1 s.nq.2.2 s.nk.1 s.nk.2.1 s.nk.2.2 s.a s.r s.τ
    s.M s.divideMass s.divideMass g).2.2 eg x ek a b * phase eg.1 (meshK s.nq.1 s.nq.2.1 s.nq.2.2 mq)).sum *
      phase ek.1 (meshK s.nk.1 s.nk.2.1 s.nk.2.2 mk)
  refine Eq.trans ?_ h1
  refine Finset.sum_congr rfl fun j _ => ?_
  rw [← sum_getList, Finset.sum_mul]
  rfl

/-- The origin is among the lattice vectors for the electrons. -/
theorem origin_mem (s : Setting n p) (hs : 0 < s.size) (hn : 0 < n) (hk : 0 < s.nk.1 ∧ 0 < s.nk.2.1 ∧ 0 < s.nk.2.2) :
    ∃ e ∈ s.Lk, e.1 = (0, 0, 0) := by
  have hm : (0, 0, 0) ∈ mesh3 s.nk.1 s.nk.2.1 s.nk.2.2 :=
    (Verif.Voronoi.mem_mesh3 _ _ _ _).2 ⟨⟨le_rfl, Int.natCast_pos.2 hk.1⟩, ⟨le_rfl, Int.natCast_pos.2 hk.2.1⟩, le_rfl,
      Int.natCast_pos.2 hk.2.2⟩
  obtain ⟨rank, hr, hmr⟩ : ∃ rank < s.size, (0, 0, 0) ∈ Verif.MPI.dealWigner s.size rank (mesh3 s.nk.1 s.nk.2.1 s.nk.2.2) := by
    by_contra hc
    push Not at hc
    have h := (Verif.MPI.C03_sum (fun x => if x = ((0, 0, 0) : V3) then (1 : ℚ) else 0) s.size hs
      (mesh3 s.nk.1 s.nk.2.1 s.nk.2.2)).2.1
    rw [Finset.sum_eq_zero, ← List.sum_toFinset _ (Verif.Voronoi.nodup_mesh3 _ _ _), Finset.sum_ite_eq',
      if_pos (List.mem_toFinset.2 hm)] at h
    · exact zero_ne_one h
    · intro rank hr
      apply List.sum_eq_zero
      intro y hy
      obtain ⟨z, hz, rfl⟩ := List.mem_map.1 hy
      rw [if_neg]
      rintro rfl
      exact hc rank (Finset.mem_range.1 hr) hz
  obtain ⟨-, -, h3, -⟩ := Verif.Voronoi.rankDict_spec (1e-7 : ℝ) 1 (Or.inl rfl) s.nk.1 s.nk.2.1 s.nk.2.2 2
    (fun i j => bondLength s.a (s.r i) (s.r j)) (List.finRange n) (List.finRange n)
    (Verif.MPI.dealWigner s.size rank (mesh3 s.nk.1 s.nk.2.1 s.nk.2.2))
    (fun x hx => (Verif.Voronoi.dealFrom_sublist _ _ _ _).subset hx)
  have h0 := h3 _ hmr ⟨0, hn⟩ (List.mem_finRange _) ⟨0, hn⟩ (List.mem_finRange _) (0, 0, 0) (by
    rw [Verif.Voronoi.mem_selected _ _ _ _ (by norm_num)]
    refine ⟨(Verif.Voronoi.mem_copies _ _ _ _ _ _ _).2 ⟨0, 0, 0, by simp, by simp, by simp, by simp⟩, fun S _ => ?_⟩
    have e0 : bondLength s.a (s.r ⟨0, hn⟩) (s.r ⟨0, hn⟩) (0, 0, 0) = 0 := by simp [bondLength]
    have e1 : 0 ≤ bondLength s.a (s.r ⟨0, hn⟩) (s.r ⟨0, hn⟩) S := Real.sqrt_nonneg _
    rw [e0]
    linarith [show (0 : ℝ) < 1e-7 by norm_num])
  exact ⟨_, List.mem_flatMap.2 ⟨rank, List.mem_range.2 hr, List.mem_map.2 ⟨_, h0, rfl⟩⟩, rfl⟩

theorem state_origin (s : Setting n p) (hs : 0 < s.size) (hk : 0 < s.nk.1 ∧ 0 < s.nk.2.1 ∧ 0 < s.nk.2.2)
    (g : V3 → Fin p × Fin 3 → V3 → Fin n → Fin n → ℂ) (lr : Option ((Fin 3 → ℝ) → Fin p × Fin 3 → ℂ)) (q : Option (Fin 3 → ℝ))
    (gq : Fin p × Fin 3 → Fin s.Lk.length → Fin n → Fin n → ℂ) (hn : 0 < n) : Origin (s.state g lr q gq) := by
  intro _
  obtain ⟨e, he, h0⟩ := origin_mem s hs hn hk
  obtain ⟨j, hj⟩ := List.get_of_mem he
  have hj' : (s.q2r g).Rk j = (0, 0, 0) := by rw [← h0, ← hj]; rfl
  have : vectorIndex (s.q2r g).Rk (0, 0, 0) ≠ none := by
    unfold vectorIndex
    rw [Ne, List.find?_eq_none]
    intro h
    exact h j (List.mem_finRange j) (by simpa using hj')
  obtain ⟨r, hr⟩ := Option.ne_none_iff_exists'.1 this
  refine ⟨r, hr, ?_⟩
  have := List.find?_some hr
  exact of_decide_eq_true this

theorem update_total (s : Setting n p) (hs : 0 < s.size) (g0 : V3 → Fin p × Fin 3 → V3 → Fin n → Fin n → ℂ)
    (lr : Option ((Fin 3 → ℝ) → Fin p × Fin 3 → ℂ)) (q : Option (Fin 3 → ℝ)) (gq : Fin p × Fin 3 → Fin s.Lk.length → Fin n → Fin n → ℂ)
    (mq mk : V3) (hq : IsMesh s.nq.1 s.nq.2.1 s.nq.2.2 mq) (hk : IsMesh s.nk.1 s.nk.2.1 s.nk.2.2 mk) (x : Fin p × Fin 3) (a b : Fin n) :
    total (s.update g0 lr q gq) (meshK s.nq.1 s.nq.2.1 s.nq.2.2 mq) (meshK s.nk.1 s.nk.2.1 s.nk.2.2 mk) x a b = g0 mq x mk a b := by
  rw [total]
  have e : (s.update g0 lr q gq).c = s.q2r _ := rfl
  rw [e, fourier_q2r s hs _ mq mk hq hk]
  have e : (s.update g0 lr q gq).lr = lr := rfl
  rw [e]
  cases lr with
  | none => simp
  | some f => simp

theorem g_cached (st : State (Fin p × Fin 3) (Fin n)) (q k : Fin 3 → ℝ) (h : st.q = some q) :
    (g st q k).2 = fun x a b => ∑ R, st.gq x R a b * phase (st.c.Rk R) k := by
  have h1 : ¬ (st.q = none ∨ st.q ≠ some q) := by simp [h]
  simp only [g, refresh]
  rw [if_neg h1]
  rfl

/-- **C128**: Whatever charges, dielectric tensor, etc. are chosen (that is, for any new long-range term), sampling the coupling,
changing the parameters and updating the short-range part does not change the coupling on the original meshes, whatever has been
calculated before. -/
theorem C128_mesh (s : Setting n p) (hs : 0 < s.size) (hn : 0 < n) (gOld : V3 → Fin p × Fin 3 → V3 → Fin n → Fin n → ℂ)
    (lrOld lr : Option ((Fin 3 → ℝ) → Fin p × Fin 3 → ℂ)) (qc : Option (Fin 3 → ℝ))
    (gq : Fin p × Fin 3 → Fin s.Lk.length → Fin n → Fin n → ℂ) (hv : Valid (s.state gOld lrOld qc gq)) (mq mk : V3)
    (hq : IsMesh s.nq.1 s.nq.2.1 s.nq.2.2 mq) (hk : IsMesh s.nk.1 s.nk.2.1 s.nk.2.2 mk) :
    (g (s.update (s.sampleOrig (s.state gOld lrOld qc gq)) lr qc gq) (meshK s.nq.1 s.nq.2.1 s.nq.2.2 mq)
      (meshK s.nk.1 s.nk.2.1 s.nk.2.2 mk)).2 =
      total (s.state gOld lrOld qc gq) (meshK s.nq.1 s.nq.2.1 s.nq.2.2 mq) (meshK s.nk.1 s.nk.2.1 s.nk.2.2 mk) := by
  have hpos : 0 < s.nk.1 ∧ 0 < s.nk.2.1 ∧ 0 < s.nk.2.2 := by
    obtain ⟨⟨h1, h2⟩, ⟨h3, h4⟩, h5, h6⟩ := hk
    omega
  by_cases hc : qc = some (meshK s.nq.1 s.nq.2.1 s.nq.2.2 mq)
  · have e := g_result (s.state gOld lrOld qc gq) (state_origin s hs hpos _ _ _ _ hn) (meshK s.nq.1 s.nq.2.1 s.nq.2.2 mq)
      (meshK s.nk.1 s.nk.2.1 s.nk.2.2 mk) (Or.inr hv)
    rw [← e]
    rw [g_cached _ _ _ hc, g_cached _ _ _ hc]
    rfl
  · rw [g_result (s.update _ lr qc gq) (state_origin s hs hpos _ _ _ _ hn) _ _ (Or.inl hc)]
    funext x a b
    rw [update_total s hs _ lr qc gq mq mk hq hk, Setting.sampleOrig,
      g_result { s.state gOld lrOld qc gq with q := none } (state_origin s hs hpos gOld lrOld none gq hn) _ _ (Or.inl (by simp))]
    rfl

/-- **C128**: For wave vectors other than the cached one, the coupling is the one for the new parameters. -/
theorem C128_new_partial (s : Setting n p) (hs : 0 < s.size) (hn : 0 < n) (hk : 0 < s.nk.1 ∧ 0 < s.nk.2.1 ∧ 0 < s.nk.2.2)
    (g0 : V3 → Fin p × Fin 3 → V3 → Fin n → Fin n → ℂ) (lr : Option ((Fin 3 → ℝ) → Fin p × Fin 3 → ℂ)) (qc : Option (Fin 3 → ℝ))
    (gq : Fin p × Fin 3 → Fin s.Lk.length → Fin n → Fin n → ℂ) (q k : Fin 3 → ℝ) (hc : qc ≠ some q) :
    (g (s.update g0 lr qc gq) q k).2 = total (s.update g0 lr qc gq) q k :=
  g_result (s.update g0 lr qc gq) (state_origin s hs hk _ _ _ _ hn) _ _ (Or.inl hc)

/-! ### Outdated cache -/

/-- Crystal with one atom per cell, unit charge and slow convergence of the Ewald sum. -/
noncomputable def unitCharge : Polar 1 where
  a i j := if i = j then 1 else 0
  b i j := if i = j then 1 else 0
  r _ _ := 0
  eps i j := if i = j then 1 else 0
  Z _ i j := if i = j then 1 else 0
  Q := none
  M _ := 1
  lr2d := false
  L := none
  perp := false
  divideMass := false
  alpha := 1 / 1000

/-- Long-range coupling (`G_max=28.0` and `G_2d=False` are the defaults). -/
noncomputable def unitLr (q : Fin 3 → ℝ) (i : Fin 1 × Fin 3) : ℂ :=
  gLr unitCharge (gList unitCharge 28 false) (zMass unitCharge) (qMass unitCharge) q i

theorem norm3_unit : Verif.Phon.norm3 (unitCharge.a 0) = 1 := by
  simp [Verif.Phon.norm3, unitCharge, Fin.sum_univ_three]

theorem gList_unit : ∃ c : Nat, 0 < c ∧ gList unitCharge 28 false = List.replicate c fun _ => 0 := by
  have e : ∀ m : V3, decide (Verif.Phon.keK unitCharge (Verif.Phon.gVec unitCharge m) < Verif.Phon.scale unitCharge * 28) =
      decide (m = (0, 0, 0)) := by
    intro m
    rw [decide_eq_decide]
    have h1 : Verif.Phon.keK unitCharge (Verif.Phon.gVec unitCharge m) =
        (2 * Real.pi) ^ 2 * (((m.1 * m.1 + m.2.1 * m.2.1 + m.2.2 * m.2.2 : Int)) : ℝ) := by
      simp [Verif.Phon.keK, Verif.Phon.gVec, unitCharge, Fin.sum_univ_three]
      ring
    have h2 : Verif.Phon.scale unitCharge * 28 = (2 * Real.pi) ^ 2 * 0.112 := by
      rw [Verif.Phon.scale, norm3_unit]
      simp only [unitCharge]
      ring
    rw [h1, h2, mul_lt_mul_iff_right₀ (by positivity)]
    constructor
    · intro h
      have h3 : m.1 * m.1 + m.2.1 * m.2.1 + m.2.2 * m.2.2 < 1 := by
        have : (((m.1 * m.1 + m.2.1 * m.2.1 + m.2.2 * m.2.2 : Int)) : ℝ) < ((1 : Int) : ℝ) := by
          push_cast at h ⊢
          linarith
        exact_mod_cast this
      have n1 := mul_self_nonneg m.1
      have n2 := mul_self_nonneg m.2.1
      have n3 := mul_self_nonneg m.2.2
      have h4 : m.1 = 0 := mul_self_eq_zero.1 (by omega)
      have h5 : m.2.1 = 0 := mul_self_eq_zero.1 (by omega)
      have h6 : m.2.2 = 0 := mul_self_eq_zero.1 (by omega)
      exact Prod.ext h4 (Prod.ext h5 h6)
    · rintro rfl
      norm_num
  refine ⟨(Verif.Phon.box (Verif.Phon.nr unitCharge 28 false)).count (0, 0, 0), List.count_pos_iff.2 ?_, ?_⟩
  · rw [Verif.Phon.mem_box]
    simp
  · rw [gList]
    simp only [e]
    rw [show (fun m : V3 => decide (m = (0, 0, 0))) = fun m => m == ((0, 0, 0) : V3) from by funext m; rw [beq_eq_decide], List.filter_beq, List.map_replicate]
    congr 1
    funext x
    simp [Verif.Phon.gVec]

theorem unitLr_zero (q : Fin 3 → ℝ) (hq : q = fun _ => 0) (i : Fin 1 × Fin 3) : unitLr q i = 0 := by
  obtain ⟨c, -, e⟩ := gList_unit
  rw [unitLr, gLr_eq, e, Verif.Phon.kList, hq, List.map_replicate, List.filter_replicate_of_neg]
  · rfl
  · simp only [decide_eq_true_eq]
    simp [Verif.Phon.keK, unitCharge]
    norm_num

theorem unitLr_one : unitLr (fun j => if j = 0 then 1 else 0) (0, 0) ≠ 0 := by
  obtain ⟨c, hc, e⟩ := gList_unit
  have h1 : Verif.Phon.keK unitCharge (fun j => if j = 0 then 1 else 0) = 1 := by
    simp [Verif.Phon.keK, unitCharge, Fin.sum_univ_three]
  rw [unitLr, gLr_eq, e, Verif.Phon.kList, List.map_replicate]
  have h2 : (fun x => (fun _ => 0 : Fin 3 → ℝ) x + (fun j : Fin 3 => if j = 0 then (1 : ℝ) else 0) 0 * unitCharge.b 0 x +
      (fun j : Fin 3 => if j = 0 then (1 : ℝ) else 0) 1 * unitCharge.b 1 x +
      (fun j : Fin 3 => if j = 0 then (1 : ℝ) else 0) 2 * unitCharge.b 2 x) = fun j : Fin 3 => if j = 0 then (1 : ℝ) else 0 := by
    funext x
    fin_cases x <;> simp [unitCharge]
  rw [h2, List.filter_replicate_of_pos, List.map_replicate, List.sum_replicate]
  · refine smul_ne_zero (by omega) (mul_ne_zero ?_ (mul_ne_zero ?_ (Complex.exp_ne_zero _)))
    · rw [Complex.ofReal_ne_zero]
      simp only [Verif.Phon.factor, unitCharge]
      have h3 : Verif.Phon.prefactor unitCharge ≠ 0 := by
        simp [Verif.Phon.prefactor, unitCharge, Verif.Bravais.cross, Fin.sum_univ_three, Real.pi_ne_zero]
      refine div_ne_zero (mul_ne_zero h3 (Real.exp_ne_zero _)) ?_
      exact (h1.trans_ne one_ne_zero)
    · simp [Verif.Phon.dotFactor, qMass, zMass, unitCharge, Fin.sum_univ_three]
  · rw [decide_eq_true_eq, h1]
    norm_num

/-- One orbital at the atom, one point per mesh. -/
noncomputable def unitSetting : Setting 1 1 where
  size := 1
  nq := (1, 1, 1)
  nk := (1, 1, 1)
  a i j := if i = j then 1 else 0
  r _ _ := 0
  τ _ _ := 0
  M _ := 1
  divideMass := false

theorem ifftn_zero (n1 n2 n3 : Nat) (f : V3 → ℂ) (hf : ∀ k ∈ mesh3 n1 n2 n3, f k = 0) (m : V3) : Verif.Fourier.ifftn n1 n2 n3 f m = 0 := by
  rw [Verif.Fourier.ifftn, List.sum_eq_zero, zero_div]
  intro y hy
  obtain ⟨k, hk, rfl⟩ := List.mem_map.1 hy
  rw [hf k hk, zero_mul]

theorem fourier_zero (s : Setting n p) (g : V3 → Fin p × Fin 3 → V3 → Fin n → Fin n → ℂ)
    (hg : ∀ mq mk x a b, mq ∈ mesh3 s.nq.1 s.nq.2.1 s.nq.2.2 → mk ∈ mesh3 s.nk.1 s.nk.2.1 s.nk.2.2 → g mq x mk a b = 0)
    (q k : Fin 3 → ℝ) (x : Fin p × Fin 3) (a b : Fin n) : fourier (s.q2r g) q k x a b = 0 := by
  have h : ∀ m m' x a b, Verif.Fourier.couplingDFT s.nq.1 s.nq.2.1 s.nq.2.2 s.nk.1 s.nk.2.1 s.nk.2.2 (fun q k => g q x k a b) m m' = 0 := by
    intro m m' x a b
    rw [Verif.Fourier.couplingDFT, ifftn_zero, star_zero]
    intro mq hq
    rw [ifftn_zero]
    intro mk hk
    rw [hg mq mk x a b hq hk, star_zero]
  simp [fourier, Setting.q2r, elphQ2r, h, Verif.Fourier.divideDegeneracy]

/-- **C128** fails for the cached wave vector: `update_short_range` keeps the cache, so the coupling calculated with the previous
parameters is returned, although it is zero and the one for the new parameters is not. -/
theorem C128_cache_violated : ∃ (s : Setting 1 1) (q k : Fin 3 → ℝ) (lr : (Fin 3 → ℝ) → Fin 1 × Fin 3 → ℂ)
    (gq : Fin 1 × Fin 3 → Fin s.Lk.length → Fin 1 → Fin 1 → ℂ), 0 < s.size ∧ Valid (s.state (fun _ _ _ _ _ => 0) none (some q) gq) ∧
    (∃ p : Polar 1, lr = gLr p (gList p 28 false) (zMass p) (qMass p)) ∧
    let new := s.update (s.sampleOrig (s.state (fun _ _ _ _ _ => 0) none (some q) gq)) (some lr) (some q) gq
    (g new q k).2 (0, 0) 0 0 = 0 ∧ total new q k (0, 0) 0 0 ≠ 0 := by
  refine ⟨unitSetting, fun j => if j = 0 then 1 else 0, fun _ => 0, unitLr,
    calcGq (unitSetting.state (fun _ _ _ _ _ => 0) none none fun _ _ _ _ => 0) fun j => if j = 0 then 1 else 0, Nat.one_pos, ?_,
    ⟨unitCharge, rfl⟩, ?_, ?_⟩
  · rintro q hq
    cases hq
    rfl
  · have ho := state_origin unitSetting Nat.one_pos ⟨Nat.one_pos, Nat.one_pos, Nat.one_pos⟩ (fun _ _ _ _ _ => 0) none none
      (fun _ _ _ _ => 0) Nat.one_pos
    have h := sum_calcGq (unitSetting.state (fun _ _ _ _ _ => 0) none none fun _ _ _ _ => 0) ho
      (fun j => if j = 0 then 1 else 0) (fun _ => 0) (0, 0) 0 0
    have h1 : total (unitSetting.state (fun _ _ _ _ _ => 0) none none fun _ _ _ _ => 0) (fun j => if j = 0 then 1 else 0)
        (fun _ => 0) (0, 0) 0 0 = 0 := (add_zero _).trans (fourier_zero _ _ (fun _ _ _ _ _ _ _ => rfl) _ _ _ _ _)
    rw [h1] at h
    rw [g_cached]
    · exact h
    · rfl
  · have e : ∀ m : V3, m ∈ mesh3 1 1 1 → meshK 1 1 1 m = fun _ => 0 := by
      intro m hm
      have hm := (Verif.Voronoi.mem_mesh3 _ _ _ _).1 hm
      have h1 : m = (0, 0, 0) := by
        obtain ⟨⟨h1, h2⟩, ⟨h3, h4⟩, h5, h6⟩ := hm
        exact Prod.ext (by show m.1 = 0; omega) (Prod.ext (by show m.2.1 = 0; omega) (by show m.2.2 = 0; omega))
      funext j
      rw [h1]
      fin_cases j <;> simp [meshK]
    rw [total]
    refine ne_of_eq_of_ne (?_ : _ = 0 + unitLr (fun j => if j = 0 then 1 else 0) (0, 0)) (by rw [zero_add]; exact unitLr_one)
    refine congrArg₂ (· + ·) (fourier_zero _ _ ?_ _ _ _ _ _) rfl
    intro mq mk x a b hq hk
    have e1 : meshK unitSetting.nq.1 unitSetting.nq.2.1 unitSetting.nq.2.2 mq = fun _ => 0 := e mq hq
    simp only
    rw [e1, unitLr_zero _ rfl, ite_self, sub_zero, Setting.sampleOrig, g_result _ _ _ _ (Or.inl (by simp)), total]
    · exact (add_zero _).trans (fourier_zero _ _ (fun _ _ _ _ _ _ _ => rfl) _ _ _ _ _)
    · exact fun h => absurd rfl h

/-- The case without previous long-range terms, with one atom and one orbital. -/
example (c : V3 → Fin 1 × Fin 3 → V3 → Fin 1 → Fin 1 → ℂ) :
    (g (unitSetting.update (unitSetting.sampleOrig (unitSetting.state c none none fun _ _ _ _ => 0)) (some unitLr) none
      fun _ _ _ _ => 0) (meshK 1 1 1 (0, 0, 0)) (meshK 1 1 1 (0, 0, 0))).2 = fun x a b => c (0, 0, 0) x (0, 0, 0) a b := by
  have hm : IsMesh 1 1 1 (0, 0, 0) := ⟨⟨le_rfl, one_pos⟩, ⟨le_rfl, one_pos⟩, le_rfl, one_pos⟩
  have h := C128_mesh unitSetting Nat.one_pos Nat.one_pos c none (some unitLr) none (fun _ _ _ _ => 0)
    (fun q hq => by simp [Setting.state] at hq) (0, 0, 0) (0, 0, 0) hm hm
  refine h.trans ?_
  funext x a b
  exact (add_zero _).trans (fourier_q2r unitSetting Nat.one_pos c (0, 0, 0) (0, 0, 0) hm hm x a b)

example (c : V3 → Fin 1 × Fin 3 → V3 → Fin 1 → Fin 1 → ℂ) (gq : Fin 1 × Fin 3 → Fin unitSetting.Lk.length → Fin 1 → Fin 1 → ℂ) :
    (g (unitSetting.update c (some unitLr) (some fun _ => 0) gq) (fun _ => 1) (fun _ => 0)).2 =
      total (unitSetting.update c (some unitLr) (some fun _ => 0) gq) (fun _ => 1) (fun _ => 0) :=
  C128_new_partial unitSetting Nat.one_pos Nat.one_pos ⟨Nat.one_pos, Nat.one_pos, Nat.one_pos⟩ _ _ _ _ _ _ fun h => by
    have := congrFun (Option.some.inj h) 0
    norm_num at this

end Verif.ElPh
