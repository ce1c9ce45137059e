import Verif.Fourier.Exact
import Mathlib.Tactic.NormNum

/-! # Lattice vectors on shortest bonds for concrete geometries (for C142) -/

namespace Verif.Fourier

open Verif.Voronoi

/-- All lattice vectors in the range. -/
def box (sgn : Int) (n1 n2 n3 : Nat) : List V3 :=
  (irange (-(2 * n1 : Int)) (2 * n1)).flatMap fun x => (irange (-(2 * n2 : Int)) (2 * n2)).flatMap fun y =>
    (irange (-(2 * n3 : Int)) (2 * n3)).map fun z => (sgn * x, sgn * y, sgn * z)

theorem mem_box (sgn : Int) (hs : sgn = 1 ∨ sgn = -1) (n1 n2 n3 : Nat) (R : V3) (h : InRange sgn n1 n2 n3 R) : R ∈ box sgn n1 n2 n3 := by
  have hss : sgn * sgn = 1 := by rcases hs with rfl | rfl <;> rfl
  obtain ⟨h1, h2, h3⟩ := h
  simp only [box, List.mem_flatMap, List.mem_map, mem_irange]
  refine ⟨sgn * R.1, h1, sgn * R.2.1, h2, sgn * R.2.2, h3, ?_⟩
  simp only [← mul_assoc, hss, one_mul]

/-- Squared lengths in two parts are known, and equivalent vectors are longer in at least one of them, if not listed with the same label. -/
def check (sgn : Int) (n1 n2 n3 : Nat) (p w : V3 → Int) (S : List V3) (o : V3 → Nat) : Bool :=
  (box sgn n1 n2 n3).all (fun R => decide (0 ≤ p R ∧ p R ≤ 2000 ∧ 0 ≤ w R ∧ w R ≤ 2000)) &&
  S.all fun R => decide (R ∈ box sgn n1 n2 n3) && (box sgn n1 n2 n3).all fun R' =>
    !(decide ((n1 : Int) ∣ R'.1 - R.1) && decide ((n2 : Int) ∣ R'.2.1 - R.2.1) && decide ((n3 : Int) ∣ R'.2.2 - R.2.2)) ||
    (decide (R' ∈ S) && decide (o R' = o R) && decide (p R' = p R) && decide (w R' = w R)) ||
    (decide (p R ≤ p R') && decide (w R ≤ w R') && (decide (p R < p R') || decide (w R < w R')))

theorem inRange_of_box (sgn : Int) (hs : sgn = 1 ∨ sgn = -1) (n1 n2 n3 : Nat) (R : V3) (h : R ∈ box sgn n1 n2 n3) : InRange sgn n1 n2 n3 R := by
  have hss : sgn * sgn = 1 := by rcases hs with rfl | rfl <;> rfl
  simp only [box, List.mem_flatMap, List.mem_map, mem_irange] at h
  obtain ⟨x, hx, y, hy, z, hz, rfl⟩ := h
  unfold InRange
  simp only [← mul_assoc, hss, one_mul]
  exact ⟨hx, hy, hz⟩

theorem sqrt_gap (x y : ℝ) (h0 : 0 ≤ x) (hxy : x + 1 / 100 ≤ y) (hy : y ≤ 40000000) : Real.sqrt x + 1e-7 < Real.sqrt y := by
  have hsx : 0 ≤ Real.sqrt x := Real.sqrt_nonneg x
  have hy0 : 0 ≤ y := by linarith
  have hsy : Real.sqrt y ≤ 6400 := by
    rw [Real.sqrt_le_left (by norm_num)]
    linarith
  have e1 := Real.sq_sqrt h0
  have e2 := Real.sq_sqrt hy0
  by_contra hlt
  push Not at hlt
  have hsy0 : 0 ≤ Real.sqrt y := Real.sqrt_nonneg y
  have hsx2 : Real.sqrt x ≤ Real.sqrt y := Real.sqrt_le_sqrt (by linarith)
  have h3 : Real.sqrt y ^ 2 - Real.sqrt x ^ 2 = (Real.sqrt y - Real.sqrt x) * (Real.sqrt y + Real.sqrt x) := by ring
  have h4 : (Real.sqrt y - Real.sqrt x) * (Real.sqrt y + Real.sqrt x) ≤ 1e-7 * 12800 := by
    apply mul_le_mul
    · linarith
    · linarith
    · linarith
    · norm_num
  norm_num at h4
  linarith

theorem check_spec (sgn : Int) (hs : sgn = 1 ∨ sgn = -1) (n1 n2 n3 : Nat) (p w : V3 → Int) (A C : ℝ) (hA : 1 / 100 ≤ A) (hA' : A ≤ 10000)
    (hC : 1 / 100 ≤ C) (hC' : C ≤ 10000) (at' : Fin 3 → Fin 3 → ℝ) (ti tj : Fin 3 → ℝ)
    (hlen : ∀ R, bondLength at' ti tj R = Real.sqrt (A * (p R : ℝ) + C * (w R : ℝ))) (S : List V3) (o : V3 → Nat)
    (hc : check sgn n1 n2 n3 p w S o = true) :
    (∀ R ∈ S, InRange sgn n1 n2 n3 R) ∧ ∀ R ∈ S, ∀ R', Equivalent n1 n2 n3 R R' → InRange sgn n1 n2 n3 R' →
      (R' ∈ S ∧ o R' = o R ∧ bondLength at' ti tj R' = bondLength at' ti tj R) ∨
        bondLength at' ti tj R + 1e-7 < bondLength at' ti tj R' := by
  simp only [check, Bool.and_eq_true, Bool.or_eq_true, List.all_eq_true, decide_eq_true_eq, Bool.not_eq_true', Bool.and_eq_false_iff,
    decide_eq_false_iff_not] at hc
  obtain ⟨hb, hc⟩ := hc
  refine ⟨fun R hR => inRange_of_box sgn hs _ _ _ R (hc R hR).1, fun R hR R' he hr => ?_⟩
  have hbox := mem_box sgn hs n1 n2 n3 R' hr
  obtain ⟨p0, p1, w0, w1⟩ := hb R' hbox
  obtain ⟨p0', p1', w0', w1'⟩ := hb R (hc R hR).1
  rcases (hc R hR).2 R' hbox with (h | h) | h
  · exfalso
    obtain ⟨e1, e2, e3⟩ := he
    rcases h with (h | h) | h
    · exact h e1
    · exact h e2
    · exact h e3
  · left
    refine ⟨h.1.1.1, h.1.1.2, ?_⟩
    rw [hlen, hlen, h.1.2, h.2]
  · right
    rw [hlen, hlen]
    have c1 : (0 : ℝ) ≤ p R := by exact_mod_cast p0'
    have c2 : (0 : ℝ) ≤ w R := by exact_mod_cast w0'
    have c3 : (p R' : ℝ) ≤ 2000 := by exact_mod_cast p1
    have c4 : (w R' : ℝ) ≤ 2000 := by exact_mod_cast w1
    have c3' : (0 : ℝ) ≤ p R' := by exact_mod_cast p0
    have c4' : (0 : ℝ) ≤ w R' := by exact_mod_cast w0
    have c5 : (p R : ℝ) ≤ p R' := by exact_mod_cast h.1.1
    have c6 : (w R : ℝ) ≤ w R' := by exact_mod_cast h.1.2
    apply sqrt_gap
    · have := mul_nonneg (by linarith : (0 : ℝ) ≤ A) c1
      have := mul_nonneg (by linarith : (0 : ℝ) ≤ C) c2
      linarith
    · rcases h.2 with h2 | h2
      · have c7 : (p R : ℝ) + 1 ≤ p R' := by exact_mod_cast h2
        nlinarith
      · have c7 : (w R : ℝ) + 1 ≤ w R' := by exact_mod_cast h2
        nlinarith
    · nlinarith

/-- Hoppings that depend only on the label are on shortest bonds. -/
theorem short_of_check (sgn : Int) (hs : sgn = 1 ∨ sgn = -1) (n1 n2 n3 : Nat) (p w : V3 → Int) (A C : ℝ) (hA : 1 / 100 ≤ A)
    (hA' : A ≤ 10000) (hC : 1 / 100 ≤ C) (hC' : C ≤ 10000) (at' : Fin 3 → Fin 3 → ℝ) (ti tj : Fin 3 → ℝ)
    (hlen : ∀ R, bondLength at' ti tj R = Real.sqrt (A * (p R : ℝ) + C * (w R : ℝ))) (S : List V3) (o : V3 → Nat) (c : Nat → ℂ)
    (hc : check sgn n1 n2 n3 p w S o = true) : Short sgn n1 n2 n3 at' ti tj S.toFinset (fun R => c (o R)) := by
  obtain ⟨h1, h2⟩ := check_spec sgn hs n1 n2 n3 p w A C hA hA' hC hC' at' ti tj hlen S o hc
  refine ⟨fun R hR => h1 R (List.mem_toFinset.1 hR), fun R hR R' he hr => ?_, fun R hR R' he hr hl => ?_⟩
  · rcases h2 R (List.mem_toFinset.1 hR) R' he hr with h | h
    · rw [h.2.2]
      linarith [show (0 : ℝ) < 1e-7 by norm_num]
    · linarith [show (0 : ℝ) < 1e-7 by norm_num]
  · rcases h2 R (List.mem_toFinset.1 hR) R' he hr with h | h
    · exact ⟨List.mem_toFinset.2 h.1, congrArg c h.2.1⟩
    · linarith

/-- Pairs of lattice vectors of unique shortest bonds. -/
theorem shortPairs_of_check (nq1 nq2 nq3 nk1 nk2 nk3 : Nat) (p w p' w' : V3 → Int) (A C : ℝ) (hA : 1 / 100 ≤ A) (hA' : A ≤ 10000)
    (hC : 1 / 100 ≤ C) (hC' : C ≤ 10000) (at' : Fin 3 → Fin 3 → ℝ) (ta tx tb : Fin 3 → ℝ)
    (hlen : ∀ R, bondLength at' ta tx R = Real.sqrt (A * (p R : ℝ) + C * (w R : ℝ)))
    (hlen' : ∀ R, bondLength at' ta tb R = Real.sqrt (A * (p' R : ℝ) + C * (w' R : ℝ)))
    (S : List (V3 × V3)) (t : V3 × V3 → ℂ)
    (hc : S.all (fun P => check 1 nq1 nq2 nq3 p w [P.1] (fun _ => 0) && check 1 nk1 nk2 nk3 p' w' [P.2] (fun _ => 0)) = true) :
    ShortPairs nq1 nq2 nq3 nk1 nk2 nk3 at' ta tx tb S.toFinset t := by
  rw [List.all_eq_true] at hc
  have key : ∀ P ∈ S.toFinset, (InRange 1 nq1 nq2 nq3 P.1 ∧ ∀ R', Equivalent nq1 nq2 nq3 P.1 R' → InRange 1 nq1 nq2 nq3 R' →
      R' = P.1 ∨ bondLength at' ta tx P.1 + 1e-7 < bondLength at' ta tx R') ∧
      InRange 1 nk1 nk2 nk3 P.2 ∧ ∀ R', Equivalent nk1 nk2 nk3 P.2 R' → InRange 1 nk1 nk2 nk3 R' →
      R' = P.2 ∨ bondLength at' ta tb P.2 + 1e-7 < bondLength at' ta tb R' := by
    intro P hP
    have h := hc P (List.mem_toFinset.1 hP)
    rw [Bool.and_eq_true] at h
    obtain ⟨a1, a2⟩ := check_spec 1 (Or.inl rfl) nq1 nq2 nq3 p w A C hA hA' hC hC' at' ta tx hlen [P.1] _ h.1
    obtain ⟨b1, b2⟩ := check_spec 1 (Or.inl rfl) nk1 nk2 nk3 p' w' A C hA hA' hC hC' at' ta tb hlen' [P.2] _ h.2
    refine ⟨⟨a1 P.1 (by simp), fun R' he hr => ?_⟩, b1 P.2 (by simp), fun R' he hr => ?_⟩
    · rcases a2 P.1 (by simp) R' he hr with h | h
      · exact Or.inl (List.mem_singleton.1 h.1)
      · exact Or.inr h
    · rcases b2 P.2 (by simp) R' he hr with h | h
      · exact Or.inl (List.mem_singleton.1 h.1)
      · exact Or.inr h
  have hpos : (0 : ℝ) < 1e-7 := by norm_num
  refine ⟨fun P hP => ⟨(key P hP).1.1, (key P hP).2.1⟩, fun P hP => ⟨fun R' he hr => ?_, fun R' he hr => ?_⟩,
    fun P hP Rg Rk e1 r1 l1 e2 r2 l2 => ?_⟩
  · rcases (key P hP).1.2 R' he hr with rfl | h <;> linarith
  · rcases (key P hP).2.2 R' he hr with rfl | h <;> linarith
  · rcases (key P hP).1.2 Rg e1 r1 with rfl | h
    · rcases (key P hP).2.2 Rk e2 r2 with rfl | h
      · exact ⟨hP, rfl⟩
      · linarith
    · linarith

theorem shortPairs_empty (nq1 nq2 nq3 nk1 nk2 nk3 : Nat) (at' : Fin 3 → Fin 3 → ℝ) (ta tx tb : Fin 3 → ℝ) (t : V3 × V3 → ℂ) :
    ShortPairs nq1 nq2 nq3 nk1 nk2 nk3 at' ta tx tb ∅ t :=
  ⟨by simp, by simp, by simp⟩

theorem short_empty (sgn : Int) (n1 n2 n3 : Nat) (at' : Fin 3 → Fin 3 → ℝ) (ti tj : Fin 3 → ℝ) (t : V3 → ℂ) :
    Short sgn n1 n2 n3 at' ti tj ∅ t :=
  ⟨by simp, by simp, by simp⟩

/-! ### Hexagonal lattice -/

/-- Lattice vectors of `bravais.primitives(ibrav=4)`, `elphmod/bravais.py` 139-144. -/
noncomputable def hex (a c : ℝ) : Fin 3 → Fin 3 → ℝ := ![![a, 0, 0], ![-0.5 * a, 0.5 * Real.sqrt 3 * a, 0], ![0, 0, c]]

/-- In-plane part of nine times the squared length in units of the lattice constant for a bond shifted by thirds of lattice vectors. -/
def hexP (u v : Int) (R : V3) : Int := (3 * R.1 + u) ^ 2 + (3 * R.2.1 + v) ^ 2 - (3 * R.1 + u) * (3 * R.2.1 + v)

/-- Out-of-plane part of a hundred times the squared length. -/
def hexW (w : Int) (R : V3) : Int := (10 * R.2.2 + w) ^ 2

theorem hex_length (a c : ℝ) (ti tj : Fin 3 → ℝ) (u v w : Int)
    (h : ∀ x, tj x - ti x = (u : ℝ) / 3 * hex a c 0 x + (v : ℝ) / 3 * hex a c 1 x + (w : ℝ) / 10 * hex a c 2 x) (R : V3) :
    bondLength (hex a c) ti tj R = Real.sqrt (a ^ 2 / 9 * (hexP u v R : ℝ) + c ^ 2 / 100 * (hexW w R : ℝ)) := by
  unfold bondLength
  have h3 : Real.sqrt 3 ^ 2 = 3 := Real.sq_sqrt (by norm_num)
  have e : ∀ x, (R.1 : ℝ) * hex a c 0 x + (R.2.1 : ℝ) * hex a c 1 x + (R.2.2 : ℝ) * hex a c 2 x + tj x - ti x =
      ((R.1 : ℝ) + u / 3) * hex a c 0 x + ((R.2.1 : ℝ) + v / 3) * hex a c 1 x + ((R.2.2 : ℝ) + w / 10) * hex a c 2 x := by
    intro x
    rw [add_sub_assoc, h x]
    ring
  simp only [e]
  simp only [hex, hexP, hexW]
  simp
  congr 1
  linear_combination ((R.2.1 : ℝ) + v / 3) ^ 2 * a ^ 2 / 4 * h3

/-! ### Orthorhombic lattice -/

/-- Lattice vectors of `bravais.primitives(ibrav=8, b=c)`. -/
noncomputable def ortho (a c : ℝ) : Fin 3 → Fin 3 → ℝ := ![![a, 0, 0], ![0, c, 0], ![0, 0, c]]

theorem ortho_length (a c : ℝ) (ti : Fin 3 → ℝ) (R : V3) :
    bondLength (ortho a c) ti ti R = Real.sqrt (a ^ 2 * ((R.1 ^ 2 : Int) : ℝ) + c ^ 2 * ((R.2.1 ^ 2 + R.2.2 ^ 2 : Int) : ℝ)) := by
  unfold bondLength
  simp [ortho]
  congr 1
  ring

end Verif.Fourier
