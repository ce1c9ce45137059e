import Verif.Diag.SupercellMesh
import Mathlib.LinearAlgebra.Matrix.Charpoly.Coeff

/-!
# C42: the complete spectrum of a supercell

All energies of the supercell at a wave vector, with multiplicities, are those of the unit cell at all wave vectors folded onto it.
-/

namespace Verif.TB

open Matrix Polynomial
open Verif.Lattice (V3 vadd vsub Supercell detSpec latPoint Equivalent)
open Verif.Fourier (phase bloch)
open Verif.Diag.Derivatives (Congr sum_cells phase_congr bloch_congr)

/-! ### Specification -/

/-- Specification: the list contains all wave vectors that the map `F` takes to `K`, each only once. Wave vectors are the same if they
differ by reciprocal lattice vectors. -/
structure Unfolds (F : (Fin 3 → ℝ) → Fin 3 → ℝ) (K : Fin 3 → ℝ) (ks : List (Fin 3 → ℝ)) : Prop where
  distinct : ks.Pairwise fun k k' => ¬ Congr k k'
  mem : ∀ k, (∃ k' ∈ ks, Congr k k') ↔ Congr (F k) K

theorem Congr.refl (k : Fin 3 → ℝ) : Congr k k := ⟨fun _ => 0, by simp⟩

/-- Wave vectors up to reciprocal lattice vectors. -/
def congrSetoid : Setoid (Fin 3 → ℝ) := ⟨Congr, Congr.refl, Verif.Diag.Derivatives.Congr.symm, Verif.Diag.Derivatives.Congr.trans⟩

/-- Two such lists are the same up to order and reciprocal lattice vectors. -/
theorem Unfolds.prod_eq {M : Type} [CommMonoid M] {F : (Fin 3 → ℝ) → Fin 3 → ℝ} {K : Fin 3 → ℝ} {ks ks' : List (Fin 3 → ℝ)}
    (h : Unfolds F K ks) (h' : Unfolds F K ks') (g : (Fin 3 → ℝ) → M) (hg : ∀ k k', Congr k k' → g k = g k') :
    (ks.map g).prod = (ks'.map g).prod := by
  have hnd : ∀ l : List (Fin 3 → ℝ), Unfolds F K l → (l.map (Quotient.mk congrSetoid)).Nodup := by
    intro l hl
    unfold List.Nodup
    rw [List.pairwise_map]
    exact hl.distinct.imp fun hab he => hab (Quotient.exact he)
  have hmem : ∀ l : List (Fin 3 → ℝ), Unfolds F K l → ∀ k, Quotient.mk congrSetoid k ∈ l.map (Quotient.mk congrSetoid) ↔ Congr (F k) K := by
    intro l hl k
    rw [← hl.mem k, List.mem_map]
    refine exists_congr fun k' => and_congr_right fun _ => ?_
    exact ⟨fun e => Quotient.exact e.symm, fun e => (Quotient.sound (s := congrSetoid) e).symm⟩
  have hp : (ks.map (Quotient.mk congrSetoid)).Perm (ks'.map (Quotient.mk congrSetoid)) := by
    rw [List.perm_ext_iff_of_nodup (hnd ks h) (hnd ks' h')]
    intro x
    induction x using Quotient.inductionOn with
    | h k => rw [hmem ks h, hmem ks' h']
  have hl : ∀ l : List (Fin 3 → ℝ), l.map g = (l.map (Quotient.mk congrSetoid)).map (Quotient.lift g hg) := by
    intro l
    rw [List.map_map]
    rfl
  rw [hl ks, hl ks']
  exact (hp.map _).prod_eq

theorem Unfolds.length_eq {F : (Fin 3 → ℝ) → Fin 3 → ℝ} {K : Fin 3 → ℝ} {ks ks' : List (Fin 3 → ℝ)}
    (h : Unfolds F K ks) (h' : Unfolds F K ks') : ks.length = ks'.length := by
  have h1 := h.prod_eq h' (fun _ => Multiplicative.ofAdd (1 : ℕ)) fun _ _ _ => rfl
  simp only [List.map_const', List.prod_replicate] at h1
  have h2 := congrArg Multiplicative.toAdd h1
  simpa using h2

theorem Unfolds.id (K : Fin 3 → ℝ) : Unfolds (fun k => k) K [K] := by
  refine ⟨List.pairwise_singleton _ _, fun k => ?_⟩
  simp

theorem Unfolds.comp {F G : (Fin 3 → ℝ) → Fin 3 → ℝ} (hF : ∀ k k', Congr k k' → Congr (F k) (F k')) {K : Fin 3 → ℝ}
    (hG : ∀ k k', Congr k k' → Congr (G k) (G k'))
    {ks : List (Fin 3 → ℝ)} (h : Unfolds G K ks) (f : (Fin 3 → ℝ) → List (Fin 3 → ℝ)) (hf : ∀ k, Unfolds F k (f k)) :
    Unfolds (fun k => G (F k)) K (ks.flatMap f) := by
  constructor
  · rw [List.pairwise_flatMap]
    refine ⟨fun k _ => (hf k).distinct, h.distinct.imp fun {a b} hab k hk k' hk' hc => hab ?_⟩
    have h1 := ((hf a).mem k).1 ⟨k, hk, Congr.refl k⟩
    have h2 := ((hf b).mem k').1 ⟨k', hk', Congr.refl k'⟩
    exact (h1.symm.trans (hF k k' hc)).trans h2
  · intro k
    rw [← h.mem (F k)]
    constructor
    · rintro ⟨k', hk', hc⟩
      obtain ⟨a, ha, hka⟩ := List.mem_flatMap.1 hk'
      exact ⟨a, ha, (hF k k' hc).trans (((hf a).mem k').1 ⟨k', hka, Congr.refl k'⟩)⟩
    · rintro ⟨a, ha, hc⟩
      obtain ⟨k', hk', hc'⟩ := ((hf a).mem k).2 hc
      exact ⟨k', List.mem_flatMap.2 ⟨a, ha, hk'⟩, hc'⟩

/-! ### Wave vectors folded by a supercell -/

/-- The inverse of `superK`. -/
noncomputable def unK (N1 N2 N3 : V3) (x : Fin 3 → ℝ) : Fin 3 → ℝ := fun i =>
  let B1 := Verif.Lattice.cross N2 N3
  let B2 := Verif.Lattice.cross N3 N1
  let B3 := Verif.Lattice.cross N1 N2
  (x 0 * ((![B1.1, B1.2.1, B1.2.2] i : Int) : ℝ) + x 1 * ((![B2.1, B2.2.1, B2.2.2] i : Int) : ℝ) +
    x 2 * ((![B3.1, B3.2.1, B3.2.2] i : Int) : ℝ)) / (detSpec N1 N2 N3 : ℝ)

theorem superK_unK (N1 N2 N3 : V3) (hD : detSpec N1 N2 N3 ≠ 0) (x : Fin 3 → ℝ) : superK N1 N2 N3 (unK N1 N2 N3 x) = x := by
  have hD' : (detSpec N1 N2 N3 : ℝ) ≠ 0 := Int.cast_ne_zero.2 hD
  obtain ⟨a1, a2, a3⟩ := N1
  obtain ⟨b1, b2, b3⟩ := N2
  obtain ⟨c1, c2, c3⟩ := N3
  have e : (detSpec (a1, a2, a3) (b1, b2, b3) (c1, c2, c3) : ℝ) =
    a1 * (b2 * c3 - b3 * c2) - a2 * (b1 * c3 - b3 * c1) + a3 * (b1 * c2 - b2 * c1) := by
    unfold Verif.Lattice.detSpec
    push_cast
    ring
  funext i
  unfold superK unK Verif.Lattice.cross
  fin_cases i <;> simp <;> field_simp <;> rw [e] <;> ring

theorem unK_superK (N1 N2 N3 : V3) (hD : detSpec N1 N2 N3 ≠ 0) (k : Fin 3 → ℝ) : unK N1 N2 N3 (superK N1 N2 N3 k) = k := by
  have hD' : (detSpec N1 N2 N3 : ℝ) ≠ 0 := Int.cast_ne_zero.2 hD
  obtain ⟨a1, a2, a3⟩ := N1
  obtain ⟨b1, b2, b3⟩ := N2
  obtain ⟨c1, c2, c3⟩ := N3
  have e : (detSpec (a1, a2, a3) (b1, b2, b3) (c1, c2, c3) : ℝ) =
    a1 * (b2 * c3 - b3 * c2) - a2 * (b1 * c3 - b3 * c1) + a3 * (b1 * c2 - b2 * c1) := by
    unfold Verif.Lattice.detSpec
    push_cast
    ring
  funext i
  unfold superK unK Verif.Lattice.cross
  fin_cases i <;> simp <;> field_simp <;> rw [e] <;> ring

/-- Rows and columns exchanged. -/
def tr1 (N1 N2 N3 : V3) : V3 := (N1.1, N2.1, N3.1)
def tr2 (N1 N2 N3 : V3) : V3 := (N1.2.1, N2.2.1, N3.2.1)
def tr3 (N1 N2 N3 : V3) : V3 := (N1.2.2, N2.2.2, N3.2.2)

theorem det_tr (N1 N2 N3 : V3) : detSpec (tr1 N1 N2 N3) (tr2 N1 N2 N3) (tr3 N1 N2 N3) = detSpec N1 N2 N3 := by
  unfold Verif.Lattice.detSpec tr1 tr2 tr3
  ring

/-- Integers as wave vectors. -/
noncomputable def twoPi (m : V3) : Fin 3 → ℝ := fun x => 2 * Real.pi * ((![m.1, m.2.1, m.2.2] x : Int) : ℝ)

theorem superK_twoPi (N1 N2 N3 n : V3) : superK N1 N2 N3 (twoPi n) = twoPi (latPoint (tr1 N1 N2 N3) (tr2 N1 N2 N3) (tr3 N1 N2 N3) n) := by
  funext x
  unfold superK twoPi latPoint tr1 tr2 tr3
  fin_cases x <;> simp <;> ring

theorem congr_iff (k k' : Fin 3 → ℝ) : Congr k k' ↔ ∃ m : V3, k = fun x => k' x + twoPi m x := by
  constructor
  · rintro ⟨z, rfl⟩
    refine ⟨(z 0, z 1, z 2), ?_⟩
    funext x
    unfold twoPi
    fin_cases x <;> simp
  · rintro ⟨m, rfl⟩
    exact ⟨![m.1, m.2.1, m.2.2], rfl⟩

theorem twoPi_inj (m n : V3) (h : twoPi m = twoPi n) : m = n := by
  have hp : (2 * Real.pi : ℝ) ≠ 0 := mul_ne_zero two_ne_zero Real.pi_ne_zero
  have h0 := congrFun h 0
  have h1 := congrFun h 1
  have h2 := congrFun h 2
  unfold twoPi at h0 h1 h2
  have k0 := mul_left_cancel₀ hp h0
  have k1 := mul_left_cancel₀ hp h1
  have k2 := mul_left_cancel₀ hp h2
  simp at k0 k1 k2
  exact Prod.ext k0 (Prod.ext k1 k2)

theorem unK_add (N1 N2 N3 : V3) (x y : Fin 3 → ℝ) : unK N1 N2 N3 (fun i => x i + y i) = fun i => unK N1 N2 N3 x i + unK N1 N2 N3 y i := by
  funext i
  unfold unK
  ring

/-- C42: for each wave vector of the supercell there are as many wave vectors of the unit cell as the supercell has cells. -/
theorem C42_unfolds (N1 N2 N3 : V3) (hD : detSpec N1 N2 N3 ≠ 0) (K : Fin 3 → ℝ) :
    ∃ ks, Unfolds (superK N1 N2 N3) K ks ∧ ks.length = (detSpec N1 N2 N3).natAbs := by
  have hD' : detSpec (tr1 N1 N2 N3) (tr2 N1 N2 N3) (tr3 N1 N2 N3) ≠ 0 := by rwa [det_tr]
  obtain ⟨t, ht, -, -, -, -, hlen, hnd, huniq⟩ := Verif.Lattice.C17_supercell _ _ _ hD'
  refine ⟨t.cells.map fun m => unK N1 N2 N3 fun x => K x + twoPi m x, ⟨?_, ?_⟩, by rw [List.length_map, hlen, det_tr]⟩
  · rw [List.pairwise_map]
    refine List.Pairwise.imp_of_mem ?_ hnd
    intro m n hm hn hne hc
    apply hne
    have h1 := Verif.Diag.Derivatives.Congr.superK (N1 := N1) (N2 := N2) (N3 := N3) hc
    rw [congr_iff] at hc
    obtain ⟨z, hz⟩ := hc
    have h2 := congrArg (superK N1 N2 N3) hz
    rw [Verif.Diag.Derivatives.superK_add, superK_unK _ _ _ hD, superK_unK _ _ _ hD, superK_twoPi] at h2
    have h3 : m = vadd n (latPoint (tr1 N1 N2 N3) (tr2 N1 N2 N3) (tr3 N1 N2 N3) z) := by
      apply twoPi_inj
      funext x
      have h4 := congrFun h2 x
      have h5 : ∀ a b : V3, twoPi (vadd a b) x = twoPi a x + twoPi b x := by
        intro a b
        unfold twoPi vadd
        fin_cases x <;> simp <;> ring
      rw [h5]
      linarith
    obtain ⟨c, -, hc⟩ := huniq m
    rw [hc m ⟨hm, ((0, 0, 0)), by simp [latPoint]⟩]
    symm
    refine hc n ⟨hn, z, ?_⟩
    generalize latPoint (tr1 N1 N2 N3) (tr2 N1 N2 N3) (tr3 N1 N2 N3) z = w at *
    subst h3
    simp [vadd]
  · intro k
    constructor
    · rintro ⟨k', hk', hc⟩
      obtain ⟨m, hm, rfl⟩ := List.mem_map.1 hk'
      refine (Verif.Diag.Derivatives.Congr.superK hc).trans ?_
      rw [superK_unK _ _ _ hD, congr_iff]
      exact ⟨m, rfl⟩
    · intro hc
      rw [congr_iff] at hc
      obtain ⟨z, hz⟩ := hc
      obtain ⟨m, ⟨hm, n, hn⟩, -⟩ := huniq z
      refine ⟨_, List.mem_map.2 ⟨m, hm, rfl⟩, ?_⟩
      rw [congr_iff]
      refine ⟨n, ?_⟩
      rw [← unK_superK _ _ _ hD (twoPi n), ← unK_add, superK_twoPi, ← hn, ← unK_superK _ _ _ hD k, hz]
      congr 1
      funext x
      unfold twoPi
      fin_cases x <;> simp <;> ring

/-! ### Block-diagonal form -/

section
variable {α : Type} [Fintype α] [DecidableEq α]

theorem charpoly_blockDiagonal {o : Type} [Fintype o] [DecidableEq o] (M : o → Matrix α α ℂ) :
    (blockDiagonal M).charpoly = ∏ j, (M j).charpoly := by
  unfold Matrix.charpoly
  rw [← det_blockDiagonal]
  congr 1
  ext ⟨a, i⟩ ⟨b, j⟩
  rw [charmatrix_apply, blockDiagonal_apply, blockDiagonal_apply]
  by_cases hij : i = j
  · subst hij
    rw [if_pos rfl, if_pos rfl, charmatrix_apply]
    congr 1
    by_cases hab : a = b
    · subst hab
      simp
    · rw [diagonal_apply_ne _ hab, diagonal_apply_ne]
      exact fun h => hab (congrArg Prod.fst h)
  · rw [if_neg hij, if_neg hij, diagonal_apply_ne, map_zero, sub_zero]
    exact fun h => hij (congrArg Prod.snd h)

/-- A matrix that acts on Bloch sums like the matrices `B j`. -/
theorem charpoly_of_folding {n : Nat} (χ : Fin n → Fin n → ℂ) (hn : n ≠ 0)
    (horth : ∀ j j', ∑ i, star (χ i j) * χ i j' = if j = j' then (n : ℂ) else 0) (H : Matrix (Fin n × α) (Fin n × α) ℂ)
    (B : Fin n → Matrix α α ℂ)
    (hH : ∀ i a j b, ∑ r, χ r j * H (i, a) (r, b) = χ i j * B j a b) :
    H.charpoly = ∏ j, (B j).charpoly := by
  have hn' : (n : ℂ) ≠ 0 := Nat.cast_ne_zero.2 hn
  let U : Matrix (Fin n × α) (α × Fin n) ℂ := fun x y => if x.2 = y.1 then χ x.1 y.2 else 0
  let V : Matrix (α × Fin n) (Fin n × α) ℂ := fun y x => if x.2 = y.1 then star (χ x.1 y.2) / n else 0
  have hVU : V * U = 1 := by
    ext ⟨a, j⟩ ⟨b, j'⟩
    rw [mul_apply, Fintype.sum_prod_type]
    have h1 : ∀ i, ∑ c, V (a, j) (i, c) * U (i, c) (b, j') = if a = b then star (χ i j) * χ i j' / n else 0 := by
      intro i
      show ∑ c, (if c = a then star (χ i j) / n else 0) * (if c = b then χ i j' else 0) = _
      rw [Finset.sum_eq_single a]
      · by_cases hab : a = b
        · simp only [hab, if_true]
          ring
        · simp [hab]
      · intro c _ hc
        simp [hc]
      · simp
    rw [Finset.sum_congr rfl fun i _ => h1 i]
    by_cases hab : a = b
    · subst hab
      simp only [if_true]
      rw [← Finset.sum_div, horth]
      by_cases hj : j = j'
      · subst hj
        simp [hn']
      · rw [if_neg hj, zero_div, one_apply_ne]
        exact fun h => hj (congrArg Prod.snd h)
    · simp only [hab, if_false, Finset.sum_const_zero]
      rw [one_apply_ne]
      exact fun h => hab (congrArg Prod.fst h)
  have hHU : H * U = U * blockDiagonal B := by
    ext ⟨i, a⟩ ⟨b, j⟩
    rw [mul_apply, Fintype.sum_prod_type, mul_apply, Fintype.sum_prod_type]
    have h1 : ∀ r, ∑ c, H (i, a) (r, c) * U (r, c) (b, j) = χ r j * H (i, a) (r, b) := by
      intro r
      show ∑ c, H (i, a) (r, c) * (if c = b then χ r j else 0) = _
      simp [mul_comm]
    have h2 : ∀ c, ∑ r, U (i, a) (c, r) * blockDiagonal B (c, r) (b, j) = if a = c then χ i j * B j a b else 0 := by
      intro c
      show ∑ r, (if a = c then χ i r else 0) * blockDiagonal B (c, r) (b, j) = _
      by_cases hac : a = c
      · subst hac
        simp only [if_true, blockDiagonal_apply]
        rw [Finset.sum_eq_single j]
        · simp
        · intro r _ hr
          simp [hr]
        · simp
      · simp [hac]
    rw [Finset.sum_congr rfl fun r _ => h1 r, hH, Finset.sum_congr rfl fun c _ => h2 c]
    simp
  let e : Fin n × α ≃ α × Fin n := Equiv.prodComm _ _
  have hUV : U * V = 1 := by
    exact (mul_eq_one_comm_of_equiv e.symm).1 hVU
  rw [← charpoly_blockDiagonal]
  have h3 : H = U * (blockDiagonal B * V) := by
    rw [← Matrix.mul_assoc, ← hHU, Matrix.mul_assoc, hUV, Matrix.mul_one]
  rw [h3, charpoly_mul_comm_of_le _ _ (le_of_eq (Fintype.card_congr e.symm)), Fintype.card_congr e, Nat.sub_self, pow_zero, one_mul,
    Matrix.mul_assoc, hVU, Matrix.mul_one]

end

variable {α : Type} [Fintype α] [DecidableEq α]

/-- Specification: the matrix of a supercell, whose index `i * self.size + a` is a pair. -/
def cellMatrix {n : Nat} (H : Nat × α → Nat × α → ℂ) : Matrix (Fin n × α) (Fin n × α) ℂ := fun x y => H (x.1, x.2) (y.1, y.2)

/-- The general form for matrices of `el` and `ph` models. -/
theorem charpoly_supercell (N1 N2 N3 : V3) (hD : detSpec N1 N2 N3 ≠ 0) (s : Supercell)
    (hs : Verif.Lattice.supercell N1 N2 N3 = some s) (H : (Fin 3 → ℝ) → Nat × α → Nat × α → ℂ) (h : (Fin 3 → ℝ) → α → α → ℂ)
    (hfold : ∀ k i, i < s.cells.length → ∀ a b, ∑ j ∈ Finset.range s.cells.length, phase (s.cells.getD j (0, 0, 0)) k *
        H (superK N1 N2 N3 k) (i, a) (j, b) = phase (s.cells.getD i (0, 0, 0)) k * h k a b)
    (hH : ∀ k k', Congr k k' → H k = H k') (K : Fin 3 → ℝ) (ks : List (Fin 3 → ℝ)) (hks : Unfolds (superK N1 N2 N3) K ks) :
    (cellMatrix (n := s.cells.length) (H K)).charpoly = (ks.map fun k => (Matrix.of (h k)).charpoly).prod := by
  have hlen : ks.length = s.cells.length := by
    obtain ⟨ks', h1, h2⟩ := C42_unfolds N1 N2 N3 hD K
    obtain ⟨s', hs', -, -, -, -, h3, -⟩ := Verif.Lattice.C17_supercell N1 N2 N3 hD
    rw [hs] at hs'
    obtain rfl := Option.some.inj hs'
    rw [hks.length_eq h1, h2, h3]
  have hn : s.cells.length ≠ 0 := by
    obtain ⟨s', hs', -, -, -, -, h3, -⟩ := Verif.Lattice.C17_supercell N1 N2 N3 hD
    rw [hs] at hs'
    obtain rfl := Option.some.inj hs'
    rw [h3]
    exact Int.natAbs_ne_zero.2 hD
  let kf : Fin s.cells.length → Fin 3 → ℝ := fun j => ks[(j : ℕ)]'(by rw [hlen]; exact j.2)
  have hK : ∀ j, Congr (superK N1 N2 N3 (kf j)) K := fun j => (hks.mem _).1 ⟨_, List.getElem_mem _, Congr.refl _⟩
  have hne : ∀ i j, i ≠ j → ¬ Congr (kf i) (kf j) := by
    intro i j hij
    rcases lt_or_gt_of_ne hij with hlt | hlt
    · exact List.pairwise_iff_getElem.1 hks.distinct _ _ _ _ hlt
    · exact fun hc => List.pairwise_iff_getElem.1 hks.distinct _ _ _ _ hlt hc.symm
  have hfin := charpoly_of_folding (α := α) (fun i j => phase (s.cells.getD i (0, 0, 0)) (kf j)) hn ?_ (cellMatrix (H K))
    (fun j => Matrix.of (h (kf j))) ?_
  · rw [hfin]
    have h1 : ks = List.ofFn kf := by
      apply List.ext_getElem
      · rw [List.length_ofFn, hlen]
      · intro i h1 h2
        rw [List.getElem_ofFn]
    conv_rhs => rw [h1]
    rw [List.map_ofFn, List.prod_ofFn]
    rfl
  · intro j j'
    have h1 : ∀ i : Fin s.cells.length, star (phase (s.cells.getD i (0, 0, 0)) (kf j)) * phase (s.cells.getD i (0, 0, 0)) (kf j') =
        phase (s.cells.getD i (0, 0, 0)) fun x => kf j' x - kf j x := by
      intro i
      rw [← phase_neg]
      unfold phase
      rw [← Complex.exp_add]
      congr 1
      push_cast
      ring
    rw [Finset.sum_congr rfl fun i _ => h1 i]
    by_cases hj : j = j'
    · subst hj
      simp [phase]
    · rw [if_neg hj]
      refine sum_cells hD hs _ ?_ ?_
      · have h2 := (hK j').trans (hK j).symm
        rw [congr_iff] at h2 ⊢
        obtain ⟨m, hm⟩ := h2
        refine ⟨m, ?_⟩
        funext x
        have h3 := congrFun hm x
        have h4 : superK N1 N2 N3 (fun x => kf j' x - kf j x) x = superK N1 N2 N3 (kf j') x - superK N1 N2 N3 (kf j) x := by
          unfold superK
          ring
        rw [h4, h3]
        ring
      · intro h2
        refine hne j' j (Ne.symm hj) ?_
        rw [congr_iff] at h2 ⊢
        obtain ⟨m, hm⟩ := h2
        refine ⟨m, ?_⟩
        funext x
        have h3 := congrFun hm x
        linarith
  · intro i a j b
    have h1 := hfold (kf j) i i.2 a b
    rw [hH _ _ (hK j), Finset.sum_range] at h1
    exact h1

/-- C42: the energies of the supercell at a wave vector are, with multiplicities, the energies of the unit cell at all wave vectors that
are folded onto it, and there are no other. -/
theorem C42_spectrum (N1 N2 N3 : V3) (hD : detSpec N1 N2 N3 ≠ 0) (s : Supercell)
    (hs : Verif.Lattice.supercell N1 N2 N3 = some s) (l : Blocks α ℂ) (hnd : (l.map Prod.fst).Nodup)
    (m : Blocks (Nat × α) ℂ) (hm : supercell s l = some m) (K : Fin 3 → ℝ) (ks : List (Fin 3 → ℝ))
    (hks : Unfolds (superK N1 N2 N3) K ks) :
    (cellMatrix (n := s.cells.length) (bloch m K)).charpoly = (ks.map fun k => (Matrix.of (bloch l k)).charpoly).prod :=
  charpoly_supercell N1 N2 N3 hD s hs (bloch m) (bloch l) (fun k i hi a b => C42_folding N1 N2 N3 hD s hs l hnd m hm k i hi a b)
    (fun _ _ h => funext fun a => funext fun b => bloch_congr h m a b) K ks hks

/-- C42: the same for the squared frequencies. -/
theorem C42_spectrum_ph (N1 N2 N3 : V3) (hD : detSpec N1 N2 N3 ≠ 0) (s : Supercell)
    (hs : Verif.Lattice.supercell N1 N2 N3 = some s) (l : Blocks α ℝ) (hnd : (l.map Prod.fst).Nodup)
    (m : Blocks (Nat × α) ℝ) (hm : supercell s l = some m) (Q : Fin 3 → ℝ) (qs : List (Fin 3 → ℝ))
    (hqs : Unfolds (superK N1 N2 N3) Q qs) :
    (cellMatrix (n := s.cells.length) (dynMat m Q)).charpoly = (qs.map fun q => (Matrix.of (dynMat l q)).charpoly).prod :=
  charpoly_supercell N1 N2 N3 hD s hs (dynMat m) (dynMat l) (fun q i hi a b => C42_folding_ph N1 N2 N3 hD s hs l hnd m hm q i hi a b)
    (fun _ _ h => funext fun a => funext fun b => bloch_congr h _ a b) Q qs hqs

example : ∃ s m, ∃ ks : List (Fin 3 → ℝ), Verif.Lattice.supercell (2, 1, 0) (-1, 1, 0) (0, 0, 1) = some s ∧
    supercell s [((1, 0, 0), fun _ _ : Fin 1 => (7 : ℂ))] = some m ∧ ks.length = 3 ∧
    (cellMatrix (n := s.cells.length) (bloch m fun _ => 1)).charpoly =
      (ks.map fun k => (Matrix.of (bloch [((1, 0, 0), fun _ _ : Fin 1 => (7 : ℂ))] k)).charpoly).prod := by
  obtain ⟨m, hm, -⟩ := C42_blocks (2, 1, 0) (-1, 1, 0) (0, 0, 1) (by decide) _ rfl
    [((1, 0, 0), fun _ _ : Fin 1 => (7 : ℂ))] (by decide)
  obtain ⟨ks, hks, hlen⟩ := C42_unfolds (2, 1, 0) (-1, 1, 0) (0, 0, 1) (by decide) fun _ => 1
  exact ⟨_, m, ks, rfl, hm, hlen, C42_spectrum _ _ _ (by decide) _ rfl _ (by decide) m hm _ ks hks⟩

end Verif.TB
