import Verif.Lattice.Lemmas

/-! # Properties C17, C18 -/

namespace Verif.Lattice

/-! ## Specification (independent of the model) -/

/-- Determinant of the matrix with rows `N1`, `N2`, `N3`. -/
def detSpec (N1 N2 N3 : V3) : Int :=
  N1.1 * (N2.2.1 * N3.2.2 - N2.2.2 * N3.2.1) - N1.2.1 * (N2.1 * N3.2.2 - N2.2.2 * N3.1) +
    N1.2.2 * (N2.1 * N3.2.1 - N2.2.1 * N3.1)

/-- The point `n1 N1 + n2 N2 + n3 N3` of the supercell lattice. -/
def latPoint (N1 N2 N3 n : V3) : V3 :=
  (n.1 * N1.1 + n.2.1 * N2.1 + n.2.2 * N3.1,
   n.1 * N1.2.1 + n.2.1 * N2.2.1 + n.2.2 * N3.2.1,
   n.1 * N1.2.2 + n.2.1 * N2.2.2 + n.2.2 * N3.2.2)

/-- Two points are equivalent modulo the supercell lattice. -/
def Equivalent (N1 N2 N3 R S : V3) : Prop :=
  ∃ n : V3, (R.1 - S.1, R.2.1 - S.2.1, R.2.2 - S.2.2) = latPoint N1 N2 N3 n

theorem detSpec_eq (N1 N2 N3 : V3) : dot N1 (cross N2 N3) = detSpec N1 N2 N3 := by
  simp only [dot, cross, detSpec]; ring

theorem latPoint_eq (N1 N2 N3 n : V3) : latPoint N1 N2 N3 n = comb n N1 N2 N3 := rfl

/-- Nonsingular supercells are accepted and are good. -/
theorem supercell_some (N1 N2 N3 : V3) (hD : detSpec N1 N2 N3 ≠ 0) :
    supercell N1 N2 N3 = some (supercellRaw N1 N2 N3) := by
  have hD' : dot N1 (cross N2 N3) ≠ 0 := by rwa [detSpec_eq]
  have h := good_raw N1 N2 N3 hD'
  unfold supercell
  simp only
  rw [if_pos]
  exact card_cells _ h rfl

/-- C17: for nonzero determinant (any sign), `supercell` returns (the internal assertion holds),
the number of cells is the absolute value of the determinant, cells are not repeated, and every
lattice vector is equivalent to exactly one cell. -/
theorem C17_supercell (N1 N2 N3 : V3) (hD : detSpec N1 N2 N3 ≠ 0) :
    ∃ s, supercell N1 N2 N3 = some s ∧ s.N1 = N1 ∧ s.N2 = N2 ∧ s.N3 = N3 ∧
      s.N = |detSpec N1 N2 N3| ∧ s.cells.length = (detSpec N1 N2 N3).natAbs ∧ s.cells.Nodup ∧
      ∀ R : V3, ∃! c, c ∈ s.cells ∧ Equivalent N1 N2 N3 R c := by
  have hD' : dot N1 (cross N2 N3) ≠ 0 := by rwa [detSpec_eq]
  have h := good_raw N1 N2 N3 hD'
  refine ⟨_, supercell_some N1 N2 N3 hD, rfl, rfl, rfl, ?_, ?_, h.nodup, ?_⟩
  · rw [← detSpec_eq]; rfl
  · have := card_cells _ h rfl
    have e : (supercellRaw N1 N2 N3).N = |detSpec N1 N2 N3| := by rw [← detSpec_eq]; rfl
    rw [e] at this
    zify; exact this
  · intro R
    have hm := remainder_mem _ h R
    refine ⟨_, ⟨hm, ⟨?_, ?_⟩⟩, ?_⟩
    · exact (dot R (supercellRaw N1 N2 N3).B1 / (supercellRaw N1 N2 N3).N,
        dot R (supercellRaw N1 N2 N3).B2 / (supercellRaw N1 N2 N3).N,
        dot R (supercellRaw N1 N2 N3).B3 / (supercellRaw N1 N2 N3).N)
    · rw [latPoint_eq]; simp [vsub, supercellRaw]
    · rintro d ⟨hd, n, hn⟩
      rw [latPoint_eq] at hn
      have e : vadd (comb n (supercellRaw N1 N2 N3).N1 (supercellRaw N1 N2 N3).N2
          (supercellRaw N1 N2 N3).N3) d = R := by
        have : comb n (supercellRaw N1 N2 N3).N1 (supercellRaw N1 N2 N3).N2
          (supercellRaw N1 N2 N3).N3 = vsub R d := hn.symm
        rw [this]; simp [vadd, vsub]
      exact (decomp_unique _ h n _ d _ hd hm (e.trans (vsub_vadd_cancel _ R).symm)).2

/-- C17, membership in closed form: a lattice vector is listed if and only if its fractional
coordinates `x_i` with respect to the supercell vectors, `|det| R = x_1 N1 + x_2 N2 + x_3 N3`, all
fulfil `0 ≤ x_i < |det|`. -/
theorem C17_cells (N1 N2 N3 : V3) (hD : detSpec N1 N2 N3 ≠ 0) (s : Supercell)
    (hs : supercell N1 N2 N3 = some s) (R : V3) :
    R ∈ s.cells ↔ ∃ x : V3, (0 ≤ x.1 ∧ x.1 < |detSpec N1 N2 N3|) ∧
      (0 ≤ x.2.1 ∧ x.2.1 < |detSpec N1 N2 N3|) ∧ (0 ≤ x.2.2 ∧ x.2.2 < |detSpec N1 N2 N3|) ∧
      latPoint N1 N2 N3 x =
        (|detSpec N1 N2 N3| * R.1, |detSpec N1 N2 N3| * R.2.1, |detSpec N1 N2 N3| * R.2.2) := by
  have hD' : dot N1 (cross N2 N3) ≠ 0 := by rwa [detSpec_eq]
  have h := good_raw N1 N2 N3 hD'
  rw [supercell_some N1 N2 N3 hD] at hs
  obtain rfl := Option.some.inj hs
  have eN : (supercellRaw N1 N2 N3).N = |detSpec N1 N2 N3| := by rw [← detSpec_eq]; rfl
  rw [h.mem R, eN]
  constructor
  · rintro ⟨h1, h2, h3⟩
    refine ⟨(dot R (supercellRaw N1 N2 N3).B1, dot R (supercellRaw N1 N2 N3).B2,
      dot R (supercellRaw N1 N2 N3).B3), h1, h2, h3, ?_⟩
    have := h.adj R
    rw [eN] at this
    exact this
  · rintro ⟨x, h1, h2, h3, he⟩
    have he' : comb x (supercellRaw N1 N2 N3).N1 (supercellRaw N1 N2 N3).N2
        (supercellRaw N1 N2 N3).N3 = smul |detSpec N1 N2 N3| R := he
    have hne : |detSpec N1 N2 N3| ≠ 0 := abs_ne_zero.2 hD
    have e1 := h.b1 x
    have e2 := h.b2 x
    have e3 := h.b3 x
    rw [he', eN] at e1 e2 e3
    have hds : ∀ c : Int, ∀ u v : V3, dot (smul c u) v = c * dot u v := by
      intro c u v; simp only [dot, smul]; ring
    rw [hds] at e1 e2 e3
    rw [Int.eq_of_mul_eq_mul_left hne e1, Int.eq_of_mul_eq_mul_left hne e2,
      Int.eq_of_mul_eq_mul_left hne e3]
    exact ⟨h1, h2, h3⟩

/-- C17, remark on the boundary of its hypothesis: linearly dependent vectors are accepted
silently, with an empty list of cells. -/
theorem C17_singular (N1 N2 N3 : V3) (hD : detSpec N1 N2 N3 = 0) :
    ∃ s, supercell N1 N2 N3 = some s ∧ s.N = 0 ∧ s.cells = [] := by
  have hD' : dot N1 (cross N2 N3) = 0 := by rwa [detSpec_eq]
  have hc : (supercellRaw N1 N2 N3).cells = [] := by
    simp only [supercellRaw, List.filter_eq_nil_iff]
    intro R _
    simp only [inCell, hD', abs_zero, Bool.and_eq_true, decide_eq_true_eq]
    omega
  have hN : (supercellRaw N1 N2 N3).N = 0 := by simp [supercellRaw, hD']
  refine ⟨supercellRaw N1 N2 N3, ?_, hN, hc⟩
  unfold supercell
  simp only
  rw [if_pos]
  rw [hc, hN]; rfl

example : detSpec (2, 1, 0) (-1, 1, 0) (0, 0, -1) ≠ 0 := by decide

example : (supercell (2, 1, 0) (-1, 1, 0) (0, 0, -1)).map (·.cells) =
    some [(0, 0, 0), (0, 1, 0), (1, 1, 0)] := by decide

example : (supercell (-2, 0, 0) (0, 1, 0) (0, 0, 1)).map (·.cells) =
    some [(-1, 0, 0), (0, 0, 0)] := by decide

/-- C18: `to_supercell` never fails on supercells returned by `supercell`, its result is a
decomposition of the lattice vector, and it is the only one. -/
theorem C18_to_supercell (N1 N2 N3 : V3) (hD : detSpec N1 N2 N3 ≠ 0) (s : Supercell)
    (hs : supercell N1 N2 N3 = some s) (R : V3) :
    ∃ R' i c, toSupercell R s = some (R', i) ∧ s.cells[i]? = some c ∧
      R = vadd (latPoint N1 N2 N3 R') c ∧
      ∀ (S' : V3) (j : Nat) (d : V3), s.cells[j]? = some d → R = vadd (latPoint N1 N2 N3 S') d →
        S' = R' ∧ j = i := by
  have hD' : dot N1 (cross N2 N3) ≠ 0 := by rwa [detSpec_eq]
  have h := good_raw N1 N2 N3 hD'
  rw [supercell_some N1 N2 N3 hD] at hs
  obtain rfl := Option.some.inj hs
  have hm := remainder_mem _ h R
  refine ⟨_, _, _, toSupercell_eq _ h R, List.getElem?_idxOf hm, ?_, ?_⟩
  · rw [latPoint_eq]
    exact (vsub_vadd_cancel _ _).symm
  · intro S' j d hd he
    have hdm := List.mem_of_getElem? hd
    have := decomp_unique _ h S' _ d _ hdm hm (by
      rw [vsub_vadd_cancel]; exact he.symm)
    refine ⟨this.1, ?_⟩
    have hj : j < (supercellRaw N1 N2 N3).cells.length := by
      by_contra hj
      rw [List.getElem?_eq_none (not_lt.1 hj)] at hd
      cases hd
    rw [← this.2]
    have e : (supercellRaw N1 N2 N3).cells[j] = d := by
      rw [List.getElem?_eq_getElem hj] at hd
      exact Option.some.inj hd
    rw [← e]
    exact (h.nodup.idxOf_getElem j hj).symm

/-- C18, the converse direction: every pair of a supercell vector and a cell index is the result
for the corresponding lattice vector. Together with `C18_to_supercell` the map is a bijection
between lattice vectors and pairs. -/
theorem C18_surjective (N1 N2 N3 : V3) (hD : detSpec N1 N2 N3 ≠ 0) (s : Supercell)
    (hs : supercell N1 N2 N3 = some s) (R' : V3) (i : Nat) (c : V3) (hc : s.cells[i]? = some c) :
    toSupercell (vadd (latPoint N1 N2 N3 R') c) s = some (R', i) := by
  obtain ⟨S, j, d, h1, _, _, h4⟩ :=
    C18_to_supercell N1 N2 N3 hD s hs (vadd (latPoint N1 N2 N3 R') c)
  obtain ⟨rfl, rfl⟩ := h4 R' i c hc rfl
  exact h1

example : (supercell (2, 1, 0) (-1, 1, 0) (0, 0, -1)).bind (toSupercell (-3, 5, 4)) =
    some ((0, 4, -4), 2) := by decide

end Verif.Lattice
