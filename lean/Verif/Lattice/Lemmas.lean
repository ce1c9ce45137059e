import Verif.Lattice.Model
import Mathlib.LinearAlgebra.FreeModule.Finite.CardQuotient
import Mathlib.LinearAlgebra.Matrix.ToLin
import Mathlib.LinearAlgebra.Matrix.Determinant.Basic
import Mathlib.Tactic.Ring
import Mathlib.Tactic.Linarith
import Mathlib.Tactic.LinearCombination

/-! Helper lemmas for `Verif.Lattice`. -/

namespace Verif.Lattice

theorem mem_irange (lo hi n : Int) : n ∈ irange lo hi ↔ lo ≤ n ∧ n < hi := by
  simp only [irange, List.mem_map, List.mem_range]
  constructor
  · rintro ⟨m, hm, rfl⟩; omega
  · rintro ⟨h1, h2⟩; exact ⟨(n - lo).toNat, by omega, by omega⟩

theorem nodup_irange (lo hi : Int) : (irange lo hi).Nodup :=
  List.Nodup.map (fun a b h => by simpa using h) List.nodup_range

theorem foldl_min_le (l : List Int) (a : Int) : l.foldl min a ≤ a ∧ ∀ x ∈ l, l.foldl min a ≤ x := by
  induction l generalizing a with
  | nil => simp
  | cons b l ih =>
    simp only [List.foldl_cons, List.mem_cons]
    obtain ⟨h1, h2⟩ := ih (min a b)
    refine ⟨le_trans h1 (min_le_left _ _), ?_⟩
    rintro x (rfl | hx)
    · exact le_trans h1 (min_le_right _ _)
    · exact h2 x hx

theorem le_foldl_max (l : List Int) (a : Int) : a ≤ l.foldl max a ∧ ∀ x ∈ l, x ≤ l.foldl max a := by
  induction l generalizing a with
  | nil => simp
  | cons b l ih =>
    simp only [List.foldl_cons, List.mem_cons]
    obtain ⟨h1, h2⟩ := ih (max a b)
    refine ⟨le_trans (le_max_left _ _) h1, ?_⟩
    rintro x (rfl | hx)
    · exact le_trans (le_max_right _ _) h1
    · exact h2 x hx

theorem cornerMin_le (a b c n1 n2 n3 : Int) (h1 : n1 = 0 ∨ n1 = 1) (h2 : n2 = 0 ∨ n2 = 1)
    (h3 : n3 = 0 ∨ n3 = 1) : cornerMin a b c ≤ n1 * a + n2 * b + n3 * c := by
  apply (foldl_min_le _ _).2
  simp only [cornerVals, List.mem_flatMap, List.mem_map, List.mem_cons, List.not_mem_nil, or_false]
  exact ⟨n1, h1, n2, h2, n3, h3, rfl⟩

theorem lt_cornerMax (a b c n1 n2 n3 : Int) (h1 : n1 = 0 ∨ n1 = 1) (h2 : n2 = 0 ∨ n2 = 1)
    (h3 : n3 = 0 ∨ n3 = 1) : n1 * a + n2 * b + n3 * c < cornerMax a b c := by
  have : n1 * a + n2 * b + n3 * c ≤ (cornerVals a b c).foldl max ((cornerVals a b c).headD 0) := by
    apply (le_foldl_max _ _).2
    simp only [cornerVals, List.mem_flatMap, List.mem_map, List.mem_cons, List.not_mem_nil,
      or_false]
    exact ⟨n1, h1, n2, h2, n3, h3, rfl⟩
  unfold cornerMax
  omega

/-- `r a` lies between `N · 0` and `N · a`. -/
theorem scale_bounds (N r a : Int) (hr : 0 ≤ r ∧ r < N) :
    (∃ n, (n = 0 ∨ n = 1) ∧ N * (n * a) ≤ r * a) ∧
    (∃ n, (n = 0 ∨ n = 1) ∧ r * a ≤ N * (n * a)) := by
  rcases le_total 0 a with h | h
  · exact ⟨⟨0, Or.inl rfl, by nlinarith⟩, ⟨1, Or.inr rfl, by nlinarith⟩⟩
  · exact ⟨⟨1, Or.inr rfl, by nlinarith⟩, ⟨0, Or.inl rfl, by nlinarith⟩⟩

theorem box_bounds (N r1 r2 r3 a b c x : Int) (h1 : 0 ≤ r1 ∧ r1 < N) (h2 : 0 ≤ r2 ∧ r2 < N)
    (h3 : 0 ≤ r3 ∧ r3 < N) (hx : N * x = r1 * a + r2 * b + r3 * c) :
    cornerMin a b c ≤ x ∧ x < cornerMax a b c := by
  have hN : 0 < N := by omega
  obtain ⟨⟨m1, hm1, l1⟩, ⟨p1, hp1, u1⟩⟩ := scale_bounds N r1 a h1
  obtain ⟨⟨m2, hm2, l2⟩, ⟨p2, hp2, u2⟩⟩ := scale_bounds N r2 b h2
  obtain ⟨⟨m3, hm3, l3⟩, ⟨p3, hp3, u3⟩⟩ := scale_bounds N r3 c h3
  constructor
  · refine le_trans (cornerMin_le a b c m1 m2 m3 hm1 hm2 hm3) ?_
    refine le_of_mul_le_mul_left ?_ hN
    rw [hx]; linarith
  · refine lt_of_le_of_lt ?_ (lt_cornerMax a b c p1 p2 p3 hp1 hp2 hp3)
    refine le_of_mul_le_mul_left ?_ hN
    rw [hx]; linarith

/-- Adjugate identity. -/
theorem adjugate (N1 N2 N3 R : V3) :
    comb (dot R (cross N2 N3), dot R (cross N3 N1), dot R (cross N1 N2)) N1 N2 N3 =
      smul (dot N1 (cross N2 N3)) R := by
  obtain ⟨a1, a2, a3⟩ := N1
  obtain ⟨b1, b2, b3⟩ := N2
  obtain ⟨c1, c2, c3⟩ := N3
  obtain ⟨x, y, z⟩ := R
  simp only [comb, dot, cross, smul, vadd, Prod.mk.injEq]
  refine ⟨by ring, by ring, by ring⟩

theorem dot_smul (R : V3) (c : Int) (v : V3) : dot R (smul c v) = c * dot R v := by
  simp only [dot, smul]; ring

/-- What is needed to know about a nonsingular supercell. -/
structure Good (s : Supercell) : Prop where
  pos : 0 < s.N
  b1 : ∀ n : V3, dot (comb n s.N1 s.N2 s.N3) s.B1 = s.N * n.1
  b2 : ∀ n : V3, dot (comb n s.N1 s.N2 s.N3) s.B2 = s.N * n.2.1
  b3 : ∀ n : V3, dot (comb n s.N1 s.N2 s.N3) s.B3 = s.N * n.2.2
  adj : ∀ R : V3, comb (dot R s.B1, dot R s.B2, dot R s.B3) s.N1 s.N2 s.N3 = smul s.N R
  mem : ∀ R : V3, R ∈ s.cells ↔ (0 ≤ dot R s.B1 ∧ dot R s.B1 < s.N) ∧
    (0 ≤ dot R s.B2 ∧ dot R s.B2 < s.N) ∧ (0 ≤ dot R s.B3 ∧ dot R s.B3 < s.N)
  nodup : s.cells.Nodup

theorem sign_mul_self_abs (a : Int) : a.sign * a = |a| := by
  rcases lt_trichotomy a 0 with h | h | h
  · rw [Int.sign_eq_neg_one_of_neg h, abs_of_neg h]; ring
  · subst h; rfl
  · rw [Int.sign_eq_one_of_pos h, abs_of_pos h]; ring

theorem good_raw (N1 N2 N3 : V3) (hD : dot N1 (cross N2 N3) ≠ 0) :
    Good (supercellRaw N1 N2 N3) := by
  have hpos : 0 < |dot N1 (cross N2 N3)| := abs_pos.2 hD
  have hadj : ∀ R : V3, comb (dot R (smul (dot N1 (cross N2 N3)).sign (cross N2 N3)),
      dot R (smul (dot N1 (cross N2 N3)).sign (cross N3 N1)),
      dot R (smul (dot N1 (cross N2 N3)).sign (cross N1 N2))) N1 N2 N3 =
      smul |dot N1 (cross N2 N3)| R := by
    intro R
    have h := adjugate N1 N2 N3 R
    rw [dot_smul, dot_smul, dot_smul, ← sign_mul_self_abs]
    generalize (dot N1 (cross N2 N3)).sign = σ at *
    simp only [comb, smul, vadd, Prod.mk.injEq] at h ⊢
    obtain ⟨h1, h2, h3⟩ := h
    refine ⟨?_, ?_, ?_⟩
    · linear_combination σ * h1
    · linear_combination σ * h2
    · linear_combination σ * h3
  constructor
  · exact hpos
  · intro n
    simp only [supercellRaw]
    rw [dot_smul, ← sign_mul_self_abs]
    simp only [dot, comb, cross, smul, vadd]; ring
  · intro n
    simp only [supercellRaw]
    rw [dot_smul, ← sign_mul_self_abs]
    simp only [dot, comb, cross, smul, vadd]; ring
  · intro n
    simp only [supercellRaw]
    rw [dot_smul, ← sign_mul_self_abs]
    simp only [dot, comb, cross, smul, vadd]; ring
  · exact hadj
  · intro R
    obtain ⟨x, y, z⟩ := R
    simp only [supercellRaw, List.mem_filter, inCell, Bool.and_eq_true, decide_eq_true_eq]
    constructor
    · rintro ⟨_, ⟨h1, h2⟩, h3⟩; exact ⟨h1, h2, h3⟩
    · rintro ⟨h1, h2, h3⟩
      refine ⟨?_, ⟨h1, h2⟩, h3⟩
      have h := hadj (x, y, z)
      simp only [comb, smul, vadd, Prod.mk.injEq] at h
      obtain ⟨e1, e2, e3⟩ := h
      simp only [List.mem_flatMap, List.mem_map, mem_irange]
      exact ⟨x, box_bounds _ _ _ _ _ _ _ _ h1 h2 h3 e1.symm,
        y, box_bounds _ _ _ _ _ _ _ _ h1 h2 h3 e2.symm,
        z, box_bounds _ _ _ _ _ _ _ _ h1 h2 h3 e3.symm, rfl⟩
  · simp only [supercellRaw]
    apply List.Nodup.filter
    rw [List.nodup_flatMap]
    refine ⟨?_, ?_⟩
    · intro a _
      rw [List.nodup_flatMap]
      refine ⟨?_, ?_⟩
      · intro b _
        exact List.Nodup.map (fun u v h => by simpa using h) (nodup_irange _ _)
      · refine (nodup_irange _ _).imp ?_
        intro b c hbc
        simp only [Function.onFun, List.disjoint_left, List.mem_map, not_exists, not_and]
        rintro u ⟨z, _, rfl⟩ w _ he
        simp at he; exact hbc he.1.symm
    · refine (nodup_irange _ _).imp ?_
      intro b c hbc
      simp only [Function.onFun, List.disjoint_left, List.mem_flatMap, List.mem_map, not_exists,
        not_and]
      rintro u ⟨y, _, z, _, rfl⟩ w _ t _ he
      simp at he; exact hbc he.1.symm

theorem smul_cancel {N : Int} (h : N ≠ 0) {a b : V3} (e : smul N a = smul N b) : a = b := by
  obtain ⟨x, y, z⟩ := a
  obtain ⟨u, v, w⟩ := b
  simp only [smul, Prod.mk.injEq] at e ⊢
  exact ⟨Int.eq_of_mul_eq_mul_left h e.1, Int.eq_of_mul_eq_mul_left h e.2.1,
    Int.eq_of_mul_eq_mul_left h e.2.2⟩

theorem dot_vsub (a b c : V3) : dot (vsub a b) c = dot a c - dot b c := by
  simp only [dot, vsub]; ring

theorem dot_vadd (a b c : V3) : dot (vadd a b) c = dot a c + dot b c := by
  simp only [dot, vadd]; ring

theorem vsub_vadd_cancel (a b : V3) : vadd a (vsub b a) = b := by
  simp [vadd, vsub]

/-- The remainder computed in `to_supercell`. -/
theorem remainder_eq (s : Supercell) (h : Good s) (R : V3) :
    let R' : V3 := (dot R s.B1 / s.N, dot R s.B2 / s.N, dot R s.B3 / s.N)
    let t := comb (dot R s.B1 % s.N, dot R s.B2 % s.N, dot R s.B3 % s.N) s.N1 s.N2 s.N3
    ((t.1 / s.N, t.2.1 / s.N, t.2.2 / s.N) : V3) = vsub R (comb R' s.N1 s.N2 s.N3) := by
  intro R' t
  have hN : s.N ≠ 0 := h.pos.ne'
  have ht : t = smul s.N (vsub R (comb R' s.N1 s.N2 s.N3)) := by
    have ha := h.adj R
    have e1 := Int.emod_add_mul_ediv (dot R s.B1) s.N
    have e2 := Int.emod_add_mul_ediv (dot R s.B2) s.N
    have e3 := Int.emod_add_mul_ediv (dot R s.B3) s.N
    simp only [t, R']
    generalize dot R s.B1 % s.N = r1 at *
    generalize dot R s.B2 % s.N = r2 at *
    generalize dot R s.B3 % s.N = r3 at *
    generalize dot R s.B1 / s.N = q1 at *
    generalize dot R s.B2 / s.N = q2 at *
    generalize dot R s.B3 / s.N = q3 at *
    simp only [comb, smul, vadd, vsub, Prod.mk.injEq] at ha ⊢
    obtain ⟨a1, a2, a3⟩ := ha
    refine ⟨?_, ?_, ?_⟩
    · linear_combination a1 + s.N1.1 * e1 + s.N2.1 * e2 + s.N3.1 * e3
    · linear_combination a2 + s.N1.2.1 * e1 + s.N2.2.1 * e2 + s.N3.2.1 * e3
    · linear_combination a3 + s.N1.2.2 * e1 + s.N2.2.2 * e2 + s.N3.2.2 * e3
  rw [ht]
  simp only [smul]
  rw [Int.mul_ediv_cancel_left _ hN, Int.mul_ediv_cancel_left _ hN, Int.mul_ediv_cancel_left _ hN]

theorem remainder_mem (s : Supercell) (h : Good s) (R : V3) :
    vsub R (comb (dot R s.B1 / s.N, dot R s.B2 / s.N, dot R s.B3 / s.N) s.N1 s.N2 s.N3) ∈
      s.cells := by
  rw [h.mem]
  simp only [dot_vsub, h.b1, h.b2, h.b3]
  have key : ∀ a : Int, 0 ≤ a - s.N * (a / s.N) ∧ a - s.N * (a / s.N) < s.N := by
    intro a
    have e := Int.emod_add_mul_ediv a s.N
    have := Int.emod_nonneg a h.pos.ne'
    have := Int.emod_lt_of_pos a h.pos
    constructor <;> linarith
  exact ⟨key _, key _, key _⟩

/-- Decomposition is unique. -/
theorem decomp_unique (s : Supercell) (h : Good s) (m n c d : V3) (hc : c ∈ s.cells)
    (hd : d ∈ s.cells)
    (e : vadd (comb m s.N1 s.N2 s.N3) c = vadd (comb n s.N1 s.N2 s.N3) d) : m = n ∧ c = d := by
  have hc' := (h.mem c).1 hc
  have hd' := (h.mem d).1 hd
  have key : ∀ a b x y : Int, 0 ≤ x ∧ x < s.N → 0 ≤ y ∧ y < s.N →
      s.N * a + x = s.N * b + y → a = b := by
    intro a b x y hx hy he
    by_contra hne
    have hpos := h.pos
    rcases lt_or_gt_of_ne hne with hl | hl
    · have : s.N * (b - a) ≥ s.N * 1 := mul_le_mul_of_nonneg_left (by omega) hpos.le
      nlinarith
    · have : s.N * (a - b) ≥ s.N * 1 := mul_le_mul_of_nonneg_left (by omega) hpos.le
      nlinarith
  have e1 := congrArg (fun v => dot v s.B1) e
  have e2 := congrArg (fun v => dot v s.B2) e
  have e3 := congrArg (fun v => dot v s.B3) e
  simp only [dot_vadd, h.b1, h.b2, h.b3] at e1 e2 e3
  have hm : m = n := by
    obtain ⟨m1, m2, m3⟩ := m
    obtain ⟨n1, n2, n3⟩ := n
    simp only [Prod.mk.injEq]
    exact ⟨key _ _ _ _ hc'.1 hd'.1 e1, key _ _ _ _ hc'.2.1 hd'.2.1 e2,
      key _ _ _ _ hc'.2.2 hd'.2.2 e3⟩
  subst hm
  refine ⟨rfl, ?_⟩
  obtain ⟨c1, c2, c3⟩ := c
  obtain ⟨d1, d2, d3⟩ := d
  simp only [vadd, Prod.mk.injEq] at e ⊢
  exact ⟨by linarith [e.1], by linarith [e.2.1], by linarith [e.2.2]⟩

theorem toSupercell_eq (s : Supercell) (h : Good s) (R : V3) :
    toSupercell R s = some ((dot R s.B1 / s.N, dot R s.B2 / s.N, dot R s.B3 / s.N),
      s.cells.idxOf (vsub R (comb (dot R s.B1 / s.N, dot R s.B2 / s.N, dot R s.B3 / s.N)
        s.N1 s.N2 s.N3))) := by
  have h1 := remainder_eq s h R
  have h2 := remainder_mem s h R
  simp only at h1
  simp only [toSupercell]
  rw [h1, if_pos h2]

/-! ### Number of cells -/

/-- `V3` as functions. -/
def toFun (v : V3) : Fin 3 → ℤ := ![v.1, v.2.1, v.2.2]

/-- and back. -/
def ofFun (f : Fin 3 → ℤ) : V3 := (f 0, f 1, f 2)

theorem ofFun_toFun (v : V3) : ofFun (toFun v) = v := rfl
theorem toFun_ofFun (f : Fin 3 → ℤ) : toFun (ofFun f) = f := by
  ext i; fin_cases i <;> rfl

/-- Matrix with the supercell vectors as columns. -/
def mat (N1 N2 N3 : V3) : Matrix (Fin 3) (Fin 3) ℤ :=
  !![N1.1, N2.1, N3.1; N1.2.1, N2.2.1, N3.2.1; N1.2.2, N2.2.2, N3.2.2]

theorem mat_mulVec (N1 N2 N3 : V3) (f : Fin 3 → ℤ) :
    (mat N1 N2 N3).mulVec f = toFun (comb (ofFun f) N1 N2 N3) := by
  ext i
  fin_cases i <;>
    simp [mat, Matrix.mulVec, dotProduct, Fin.sum_univ_three, toFun, ofFun, comb, vadd, smul] <;>
    ring

theorem det_mat (N1 N2 N3 : V3) : (mat N1 N2 N3).det = dot N1 (cross N2 N3) := by
  simp [mat, Matrix.det_fin_three, dot, cross]
  ring

theorem card_cells (s : Supercell) (h : Good s) (hN : s.N = |dot s.N1 (cross s.N2 s.N3)|) :
    (s.cells.length : Int) = s.N := by
  classical
  let f : (Fin 3 → ℤ) →ₗ[ℤ] (Fin 3 → ℤ) := Matrix.toLin' (mat s.N1 s.N2 s.N3)
  have hf : ∀ v, f v = toFun (comb (ofFun v) s.N1 s.N2 s.N3) := by
    intro v; simp only [f, Matrix.toLin'_apply]; exact mat_mulVec _ _ _ v
  have hinj : Function.Injective f := by
    intro a b hab
    rw [hf, hf] at hab
    have hab' : comb (ofFun a) s.N1 s.N2 s.N3 = comb (ofFun b) s.N1 s.N2 s.N3 := by
      rw [← ofFun_toFun (comb (ofFun a) s.N1 s.N2 s.N3), hab, ofFun_toFun]
    have e1 := congrArg (fun v => dot v s.B1) hab'
    have e2 := congrArg (fun v => dot v s.B2) hab'
    have e3 := congrArg (fun v => dot v s.B3) hab'
    simp only [h.b1, h.b2, h.b3] at e1 e2 e3
    have hne := h.pos.ne'
    ext i
    fin_cases i
    · exact Int.eq_of_mul_eq_mul_left hne e1
    · exact Int.eq_of_mul_eq_mul_left hne e2
    · exact Int.eq_of_mul_eq_mul_left hne e3
  let e := LinearEquiv.ofInjective f hinj
  have hcard := Submodule.natAbs_det_equiv (LinearMap.range f) e
  have hdet : (LinearMap.range f).subtype ∘ₗ
      AddMonoidHom.toIntLinearMap (e : (Fin 3 → ℤ) →+ LinearMap.range f) = f := by
    ext; rfl
  rw [hdet] at hcard
  have hdet2 : LinearMap.det f = dot s.N1 (cross s.N2 s.N3) := by
    rw [← det_mat]; exact LinearMap.det_toLin' _
  rw [hdet2] at hcard
  let g : {c // c ∈ s.cells.toFinset} → (Fin 3 → ℤ) ⧸ LinearMap.range f :=
    fun c => Submodule.Quotient.mk (toFun c.1)
  have hg : Function.Bijective g := by
    constructor
    · rintro ⟨c, hc⟩ ⟨d, hd⟩ hcd
      have hcd' := (Submodule.Quotient.eq (LinearMap.range f)).1 hcd
      obtain ⟨v, hv⟩ := hcd'
      rw [hf] at hv
      have hv' : comb (ofFun v) s.N1 s.N2 s.N3 = vsub c d := by
        rw [← ofFun_toFun (comb (ofFun v) s.N1 s.N2 s.N3), hv]
        rfl
      have := decomp_unique s h (0, 0, 0) (ofFun v) c d (List.mem_toFinset.1 hc)
        (List.mem_toFinset.1 hd) (by
          rw [hv']
          simp [comb, vadd, smul, vsub])
      exact Subtype.ext this.2
    · intro q
      obtain ⟨v, rfl⟩ := Submodule.Quotient.mk_surjective _ q
      have hm := remainder_mem s h (ofFun v)
      refine ⟨⟨_, List.mem_toFinset.2 hm⟩, ?_⟩
      apply (Submodule.Quotient.eq (LinearMap.range f)).2
      refine ⟨toFun (-(dot (ofFun v) s.B1 / s.N), -(dot (ofFun v) s.B2 / s.N),
        -(dot (ofFun v) s.B3 / s.N)), ?_⟩
      rw [hf]
      ext i
      fin_cases i <;> simp [toFun, ofFun, comb, vadd, vsub, smul] <;> ring
  have h1 : Nat.card {c // c ∈ s.cells.toFinset} = s.cells.length := by
    rw [Nat.card_eq_fintype_card, Fintype.card_coe, List.toFinset_card_of_nodup h.nodup]
  rw [← Nat.card_congr (Equiv.ofBijective g hg), h1] at hcard
  rw [← hcard, hN]
  exact Int.natCast_natAbs _

end Verif.Lattice
