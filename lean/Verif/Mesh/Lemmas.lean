import Verif.Mesh.Model
import Mathlib.Tactic.Ring
import Mathlib.Tactic.Linarith
import Mathlib.Tactic.IntervalCases
import Mathlib.Data.Int.ModEq

/-! Helper lemmas for `Verif.Mesh`. -/

namespace Verif.Mesh

theorem red_red (nk : Int) (k : P) : red nk (red nk k) = red nk k := by
  simp [red]

theorem red_eq_iff (nk : Int) (k l : P) :
    red nk k = red nk l ↔ k.1 ≡ l.1 [ZMOD nk] ∧ k.2 ≡ l.2 [ZMOD nk] := by
  simp [red, Prod.mk.injEq, Int.ModEq]

theorem red_modEq (nk : Int) (k : P) : (red nk k).1 ≡ k.1 [ZMOD nk] ∧ (red nk k).2 ≡ k.2 [ZMOD nk] :=
  ⟨Int.mod_modEq _ _, Int.mod_modEq _ _⟩

theorem red_rot_red (angle : Angle) (nk : Int) (k : P) :
    red nk (rot angle (red nk k)) = red nk (rot angle k) := by
  rw [red_eq_iff]
  obtain ⟨h1, h2⟩ := red_modEq nk k
  obtain ⟨a, b⟩ := k
  cases angle <;> simp only [rot, red] at *
  · exact ⟨h2.neg, h1.add h2⟩
  · exact ⟨h2.neg, h1⟩
  · exact ⟨h1.sub h2, h1⟩

theorem iter_step (angle : Angle) (nk : Int) (n : Nat) (k : P) :
    (fun p => red nk (rot angle p))^[n + 1] k = red nk ((rot angle)^[n + 1] k) := by
  induction n with
  | zero => rfl
  | succ n ih =>
    rw [Function.iterate_succ_apply', ih, red_rot_red, ← Function.iterate_succ_apply' (rot angle)]

theorem rot_six (angle : Angle) (k : P) : (rot angle)^[nrot angle] k = k := by
  obtain ⟨a, b⟩ := k
  cases angle <;> simp [nrot, rot, Function.iterate_succ_apply]

theorem nrot_le (angle : Angle) : nrot angle ≤ 6 := by cases angle <;> decide

theorem nrot_pos (angle : Angle) : 0 < nrot angle := by cases angle <;> decide

/-- The loop collects all iterates. -/
theorem imagesLoop_spec (angle : Angle) (nk : Int) (k : P) :
    ∃ S, imagesLoop angle nk 7 ∅ k = some S ∧
      ∀ p, p ∈ S ↔ ∃ n, p = red nk ((rot angle)^[n] k) := by
  -- general statement after `n` iterations
  have key : ∀ fuel n : Nat, nrot angle < fuel + n → ∀ S : Finset P,
      (∀ p, p ∈ S ↔ ∃ i < n, p = red nk ((rot angle)^[i + 1] k)) →
      ∀ q, (q = if n = 0 then k else red nk ((rot angle)^[n] k)) →
      (n ≤ nrot angle) →
      ∃ T, imagesLoop angle nk fuel S q = some T ∧
        ∀ p, p ∈ T ↔ ∃ i, p = red nk ((rot angle)^[i + 1] k) := by
    intro fuel
    induction fuel with
    | zero => intro n h S _ q _ hn; omega
    | succ fuel ih =>
      intro n h S hS q hq hn
      have hq' : red nk (rot angle q) = red nk ((rot angle)^[n + 1] k) := by
        rw [hq]
        split
        · next h0 => subst h0; rfl
        · rw [red_rot_red, Function.iterate_succ_apply']
      simp only [imagesLoop]
      rw [hq']
      split
      · next hmem =>
        refine ⟨S, rfl, ?_⟩
        obtain ⟨j, hj, he⟩ := (hS _).1 hmem
        intro p
        rw [hS]
        constructor
        · rintro ⟨i, _, rfl⟩; exact ⟨i, rfl⟩
        · rintro ⟨i, rfl⟩
          -- all iterates are among the first `n`
          induction i with
          | zero => exact ⟨0, by omega, rfl⟩
          | succ i ihi =>
            obtain ⟨l, hl, hle⟩ := ihi
            rcases Nat.lt_or_ge (l + 1) n with h1 | h1
            · refine ⟨l + 1, h1, ?_⟩
              rw [Function.iterate_succ_apply' _ (i + 1), ← red_rot_red, hle, red_rot_red,
                ← Function.iterate_succ_apply' (rot angle)]
            · have hln : l + 1 = n := by omega
              refine ⟨j, hj, ?_⟩
              rw [Function.iterate_succ_apply' _ (i + 1), ← red_rot_red, hle, red_rot_red,
                ← Function.iterate_succ_apply' (rot angle), hln, he]
      · next hmem =>
        have hn' : n < nrot angle := by
          by_contra hge
          have hne : n = nrot angle := by omega
          apply hmem
          rw [hS]
          refine ⟨0, by have := nrot_pos angle; omega, ?_⟩
          rw [hne, Function.iterate_succ_apply', rot_six]; rfl
        refine ih (n + 1) (by omega) _ ?_ _ (by simp) (by omega)
        intro p
        rw [Finset.mem_insert, hS]
        constructor
        · rintro (rfl | ⟨i, hi, rfl⟩)
          · exact ⟨n, by omega, rfl⟩
          · exact ⟨i, by omega, rfl⟩
        · rintro ⟨i, hi, rfl⟩
          rcases Nat.lt_succ_iff_lt_or_eq.1 hi with h1 | h1
          · exact Or.inr ⟨i, h1, rfl⟩
          · subst h1; exact Or.inl rfl
  obtain ⟨S, h1, h2⟩ := key 7 0 (by have := nrot_le angle; omega) ∅ (by simp) k (by simp) (by omega)
  refine ⟨S, h1, fun p => ?_⟩
  rw [h2]
  constructor
  · rintro ⟨i, rfl⟩; exact ⟨i + 1, rfl⟩
  · rintro ⟨i, rfl⟩
    refine ⟨i + (nrot angle - 1), ?_⟩
    have e : i + (nrot angle - 1) + 1 = i + nrot angle := by have := nrot_pos angle; omega
    rw [e, Function.iterate_add_apply, rot_six]

/-- Membership in `images`. -/
theorem mem_images (k : P) (nk : Int) (angle : Angle) (p : P) :
    p ∈ images k nk angle ↔ ∃ n, p = red nk ((rot angle)^[n] k) ∨
      p = red nk (((rot angle)^[n] k).2, ((rot angle)^[n] k).1) := by
  obtain ⟨S, h1, h2⟩ := imagesLoop_spec angle nk k
  simp only [images, h1, Option.getD_some, Finset.mem_union, Finset.mem_image]
  constructor
  · rintro (h | ⟨q, hq, rfl⟩)
    · obtain ⟨n, rfl⟩ := (h2 p).1 h; exact ⟨n, Or.inl rfl⟩
    · obtain ⟨n, rfl⟩ := (h2 q).1 hq; exact ⟨n, Or.inr rfl⟩
  · rintro ⟨n, rfl | rfl⟩
    · exact Or.inl ((h2 _).2 ⟨n, rfl⟩)
    · exact Or.inr ⟨_, (h2 _).2 ⟨n, rfl⟩, rfl⟩

/-! ### Isometries -/

/-- Integer matrices `((a, b), (c, d))` acting on mesh points. -/
structure Lin where
  a : Int
  b : Int
  c : Int
  d : Int
  deriving DecidableEq

/-- Action. -/
def Lin.act (A : Lin) (k : P) : P := (A.a * k.1 + A.b * k.2, A.c * k.1 + A.d * k.2)

/-- Squared length of `k1 e1 + k2 e2` for unit vectors `e1`, `e2` that enclose the angle. -/
def normSq : Angle → P → Int
  | .a60, k => k.1 * k.1 + k.2 * k.2 + k.1 * k.2
  | .a90, k => k.1 * k.1 + k.2 * k.2
  | .a120, k => k.1 * k.1 + k.2 * k.2 - k.1 * k.2

/-- All linear maps of the lattice onto itself that preserve lengths. -/
def Lin.Isometry (angle : Angle) (A : Lin) : Prop := ∀ k, normSq angle (A.act k) = normSq angle k

theorem unit60 {a b : Int} (h : a * a + b * b + a * b = 1) :
    (a = 1 ∧ b = 0) ∨ (a = 0 ∧ b = 1) ∨ (a = -1 ∧ b = 1) ∨ (a = -1 ∧ b = 0) ∨ (a = 0 ∧ b = -1) ∨
      (a = 1 ∧ b = -1) := by
  have h1 : a ≤ 1 := by nlinarith [sq_nonneg (a + 2 * b), sq_nonneg a]
  have h2 : -1 ≤ a := by nlinarith [sq_nonneg (a + 2 * b), sq_nonneg a]
  have h3 : b ≤ 1 := by nlinarith [sq_nonneg (2 * a + b), sq_nonneg b]
  have h4 : -1 ≤ b := by nlinarith [sq_nonneg (2 * a + b), sq_nonneg b]
  interval_cases a <;> interval_cases b <;> omega

theorem unit90 {a b : Int} (h : a * a + b * b = 1) :
    (a = 1 ∧ b = 0) ∨ (a = 0 ∧ b = 1) ∨ (a = -1 ∧ b = 0) ∨ (a = 0 ∧ b = -1) := by
  have h1 : a ≤ 1 := by nlinarith [sq_nonneg b, sq_nonneg a]
  have h2 : -1 ≤ a := by nlinarith [sq_nonneg b, sq_nonneg a]
  have h3 : b ≤ 1 := by nlinarith [sq_nonneg a, sq_nonneg b]
  have h4 : -1 ≤ b := by nlinarith [sq_nonneg a, sq_nonneg b]
  interval_cases a <;> interval_cases b <;> omega

/-- Matrix product. -/
def Lin.mul (A B : Lin) : Lin :=
  ⟨A.a * B.a + A.b * B.c, A.a * B.b + A.b * B.d, A.c * B.a + A.d * B.c, A.c * B.b + A.d * B.d⟩

theorem Lin.act_mul (A B : Lin) (k : P) : (A.mul B).act k = A.act (B.act k) := by
  simp only [Lin.act, Lin.mul, Prod.mk.injEq]; constructor <;> ring

/-- Matrix of `rot`. -/
def rotL : Angle → Lin
  | .a60 => ⟨0, -1, 1, 1⟩
  | .a90 => ⟨0, -1, 1, 0⟩
  | .a120 => ⟨1, -1, 1, 0⟩

/-- Powers of `rotL`. -/
def rotPow (angle : Angle) : Nat → Lin
  | 0 => ⟨1, 0, 0, 1⟩
  | n + 1 => (rotL angle).mul (rotPow angle n)

/-- Exchange of components. -/
def swapL : Lin := ⟨0, 1, 1, 0⟩

theorem act_rotL (angle : Angle) (k : P) : (rotL angle).act k = rot angle k := by
  obtain ⟨x, y⟩ := k
  cases angle <;> simp [rotL, rot, Lin.act] <;> ring

theorem act_rotPow (angle : Angle) (n : Nat) (k : P) :
    (rotPow angle n).act k = (rot angle)^[n] k := by
  induction n with
  | zero => simp [rotPow, Lin.act]
  | succ n ih => rw [rotPow, Lin.act_mul, ih, act_rotL, Function.iterate_succ_apply']

theorem act_swapL (k : P) : swapL.act k = (k.2, k.1) := by simp [swapL, Lin.act]

theorem isometry_mul {angle : Angle} {A B : Lin} (hA : A.Isometry angle) (hB : B.Isometry angle) :
    (A.mul B).Isometry angle := fun k => by rw [Lin.act_mul, hA, hB]

theorem isometry_rotPow (angle : Angle) (n : Nat) : (rotPow angle n).Isometry angle := by
  induction n with
  | zero => intro k; simp [rotPow, Lin.act]
  | succ n ih =>
    refine isometry_mul (fun k => ?_) ih
    rw [act_rotL]
    obtain ⟨x, y⟩ := k
    cases angle <;> simp only [rot, normSq] <;> ring

theorem isometry_swapL (angle : Angle) : swapL.Isometry angle := by
  intro k
  rw [act_swapL]
  cases angle <;> simp only [normSq] <;> ring

/-- Every isometry is a rotation or a rotation followed by the exchange of components. -/
theorem isometry_cases (angle : Angle) (A : Lin) (h : A.Isometry angle) :
    ∃ n < nrot angle, A = rotPow angle n ∨ A = swapL.mul (rotPow angle n) := by
  obtain ⟨a, b, c, d⟩ := A
  have h10 := h (1, 0)
  have h01 := h (0, 1)
  have h11 := h (1, 1)
  clear h
  cases angle
  · simp only [Lin.act, normSq, mul_one, mul_zero, add_zero, zero_add] at h10 h01 h11
    rcases unit60 h10 with ⟨rfl, rfl⟩ | ⟨rfl, rfl⟩ | ⟨rfl, rfl⟩ | ⟨rfl, rfl⟩ | ⟨rfl, rfl⟩ |
      ⟨rfl, rfl⟩ <;>
    rcases unit60 h01 with ⟨rfl, rfl⟩ | ⟨rfl, rfl⟩ | ⟨rfl, rfl⟩ | ⟨rfl, rfl⟩ | ⟨rfl, rfl⟩ |
      ⟨rfl, rfl⟩ <;>
    (revert h11; decide)
  · simp only [Lin.act, normSq, mul_one, mul_zero, add_zero, zero_add] at h10 h01 h11
    rcases unit90 h10 with ⟨rfl, rfl⟩ | ⟨rfl, rfl⟩ | ⟨rfl, rfl⟩ | ⟨rfl, rfl⟩ <;>
    rcases unit90 h01 with ⟨rfl, rfl⟩ | ⟨rfl, rfl⟩ | ⟨rfl, rfl⟩ | ⟨rfl, rfl⟩ <;>
    (revert h11; decide)
  · simp only [Lin.act, normSq, mul_one, mul_zero, add_zero, zero_add, sub_zero] at h10 h01 h11
    have h10' : a * a + (-c) * (-c) + a * (-c) = 1 := by linarith
    have h01' : b * b + (-d) * (-d) + b * (-d) = 1 := by linarith
    have hc : ∀ x y : Int, -x = y → x = -y := by intros; omega
    rcases unit60 h10' with ⟨rfl, e⟩ | ⟨rfl, e⟩ | ⟨rfl, e⟩ | ⟨rfl, e⟩ | ⟨rfl, e⟩ | ⟨rfl, e⟩ <;>
    obtain rfl := hc _ _ e <;>
    rcases unit60 h01' with ⟨rfl, e'⟩ | ⟨rfl, e'⟩ | ⟨rfl, e'⟩ | ⟨rfl, e'⟩ | ⟨rfl, e'⟩ |
      ⟨rfl, e'⟩ <;>
    obtain rfl := hc _ _ e' <;>
    (revert h11; decide)

theorem mem_images_isometry (k : P) (nk : Int) (angle : Angle) (p : P) :
    p ∈ images k nk angle ↔ ∃ A : Lin, A.Isometry angle ∧ p = red nk (A.act k) := by
  rw [mem_images]
  constructor
  · rintro ⟨n, rfl | rfl⟩
    · exact ⟨_, isometry_rotPow angle n, by rw [act_rotPow]⟩
    · exact ⟨_, isometry_mul (isometry_swapL angle) (isometry_rotPow angle n), by
        rw [Lin.act_mul, act_rotPow, act_swapL]⟩
  · rintro ⟨A, hA, rfl⟩
    obtain ⟨n, -, rfl | rfl⟩ := isometry_cases angle A hA
    · exact ⟨n, Or.inl (by rw [act_rotPow])⟩
    · exact ⟨n, Or.inr (by rw [Lin.act_mul, act_rotPow, act_swapL])⟩

theorem isometry_inv (angle : Angle) (A : Lin) (h : A.Isometry angle) :
    ∃ B : Lin, B.Isometry angle ∧ ∀ k, B.act (A.act k) = k := by
  obtain ⟨n, hn, hA⟩ := isometry_cases angle A h
  have hinv : ∀ k, (rotPow angle (nrot angle - n)).act ((rotPow angle n).act k) = k := by
    intro k
    rw [act_rotPow, act_rotPow, ← Function.iterate_add_apply, Nat.sub_add_cancel hn.le, rot_six]
  rcases hA with rfl | rfl
  · exact ⟨_, isometry_rotPow angle _, hinv⟩
  · refine ⟨_, isometry_mul (isometry_rotPow angle (nrot angle - n)) (isometry_swapL angle), ?_⟩
    intro k
    rw [Lin.act_mul, Lin.act_mul, act_swapL, act_swapL]
    exact hinv k

theorem red_act_red (A : Lin) (nk : Int) (k : P) : red nk (A.act (red nk k)) = red nk (A.act k) := by
  rw [red_eq_iff]
  obtain ⟨h1, h2⟩ := red_modEq nk k
  simp only [Lin.act]
  exact ⟨(h1.mul_left _).add (h2.mul_left _), (h1.mul_left _).add (h2.mul_left _)⟩

theorem images_eq_of_mem (k p : P) (nk : Int) (angle : Angle) (h : p ∈ images k nk angle) :
    images p nk angle = images k nk angle := by
  obtain ⟨A, hA, rfl⟩ := (mem_images_isometry _ _ _ _).1 h
  ext q
  rw [mem_images_isometry, mem_images_isometry]
  constructor
  · rintro ⟨B, hB, rfl⟩
    exact ⟨_, isometry_mul hB hA, by rw [red_act_red, Lin.act_mul]⟩
  · rintro ⟨B, hB, rfl⟩
    obtain ⟨C, hC, hinv⟩ := isometry_inv angle A hA
    refine ⟨_, isometry_mul hB hC, ?_⟩
    rw [red_act_red, Lin.act_mul, hinv]

theorem red_mem_images (k : P) (nk : Int) (angle : Angle) : red nk k ∈ images k nk angle := by
  rw [mem_images]; exact ⟨0, Or.inl rfl⟩

/-! ### Mesh points -/

theorem mem_meshPoints (nk : Nat) (p : P) :
    p ∈ meshPoints nk ↔ (0 ≤ p.1 ∧ p.1 < nk) ∧ (0 ≤ p.2 ∧ p.2 < nk) := by
  obtain ⟨a, b⟩ := p
  simp only [meshPoints, List.mem_flatMap, List.mem_map, List.mem_range, Prod.mk.injEq]
  constructor
  · rintro ⟨i, hi, j, hj, rfl, rfl⟩; omega
  · rintro ⟨⟨h1, h2⟩, h3, h4⟩
    exact ⟨a.toNat, by omega, b.toNat, by omega, by omega, by omega⟩

theorem red_of_mem {nk : Nat} {p : P} (h : p ∈ meshPoints nk) : red nk p = p := by
  obtain ⟨h1, h2⟩ := (mem_meshPoints nk p).1 h
  simp [red, Int.emod_eq_of_lt h1.1 h1.2, Int.emod_eq_of_lt h2.1 h2.2]

theorem red_mem {nk : Nat} (h : 0 < nk) (p : P) : red nk p ∈ meshPoints nk := by
  rw [mem_meshPoints]
  have h' : (nk : Int) ≠ 0 := by omega
  exact ⟨⟨Int.emod_nonneg _ h', Int.emod_lt_of_pos _ (by omega)⟩,
    Int.emod_nonneg _ h', Int.emod_lt_of_pos _ (by omega)⟩

/-- Row-major order. -/
def RowLt (p q : P) : Prop := p.1 < q.1 ∨ (p.1 = q.1 ∧ p.2 < q.2)

theorem RowLt.irrefl (p : P) : ¬ RowLt p p := by unfold RowLt; omega

theorem RowLt.asymm {p q : P} (h : RowLt p q) : ¬ RowLt q p := by unfold RowLt at *; omega

theorem RowLt.total {p q : P} (h : p ≠ q) : RowLt p q ∨ RowLt q p := by
  obtain ⟨a, b⟩ := p
  obtain ⟨c, d⟩ := q
  simp only [ne_eq, Prod.mk.injEq, not_and] at h
  unfold RowLt
  simp only
  by_cases e : a = c
  · have := h e; omega
  · omega

theorem pairwise_meshPoints (nk : Nat) : (meshPoints nk).Pairwise RowLt := by
  unfold meshPoints
  rw [List.pairwise_flatMap]
  constructor
  · intro a _
    rw [List.pairwise_map]
    refine List.pairwise_lt_range.imp ?_
    intro b c h
    exact Or.inr ⟨rfl, by simpa using h⟩
  · refine List.pairwise_lt_range.imp ?_
    intro a b h x hx y hy
    simp only [List.mem_map] at hx hy
    obtain ⟨_, _, rfl⟩ := hx
    obtain ⟨_, _, rfl⟩ := hy
    exact Or.inl (by simpa using h)

/-- Equivalence of mesh points. -/
theorem irr_fold (nk : Nat) (angle : Angle) (pre post : List P)
    (h : meshPoints nk = pre ++ post) (p : P) :
    p ∈ pre.foldl (irrStep nk angle) (meshPoints nk).toFinset ↔
      p ∈ meshPoints nk ∧ ∀ q ∈ pre, RowLt q p → p ∉ images q nk angle := by
  induction pre using List.reverseRecOn generalizing post p with
  | nil => simp
  | append_singleton pre k ih =>
    have h' : meshPoints nk = pre ++ k :: post := by rw [h]; simp
    have ih' := ih (k :: post) h'
    rw [List.foldl_append, List.foldl_cons, List.foldl_nil]
    have hpw := pairwise_meshPoints nk
    rw [h', List.pairwise_append] at hpw
    obtain ⟨_, hpost, hpre⟩ := hpw
    have hk : k ∈ meshPoints nk := by rw [h']; simp
    have hkred := red_of_mem hk
    have hbefore : ∀ q ∈ meshPoints nk, RowLt q k → q ∈ pre := by
      intro q hq hlt
      rw [h', List.mem_append, List.mem_cons] at hq
      rcases hq with hq | rfl | hq
      · exact hq
      · exact absurd hlt (RowLt.irrefl _)
      · exact absurd hlt ((List.rel_of_pairwise_cons hpost hq).asymm)
    generalize pre.foldl (irrStep nk angle) (meshPoints nk).toFinset = S at *
    unfold irrStep
    split
    · next hmem =>
      have hk' := ((ih' k).1 hmem).2
      rw [Finset.mem_sdiff, ih' p, Finset.mem_erase]
      constructor
      · rintro ⟨⟨hp, hall⟩, hnot⟩
        refine ⟨hp, ?_⟩
        intro q hq hlt
        rw [List.mem_append, List.mem_singleton] at hq
        rcases hq with hq | rfl
        · exact hall q hq hlt
        · intro hi
          exact hnot ⟨fun e => RowLt.irrefl q (e ▸ hlt), hi⟩
      · rintro ⟨hp, hall⟩
        refine ⟨⟨hp, fun q hq => hall q (List.mem_append_left _ hq)⟩, ?_⟩
        rintro ⟨hne, hi⟩
        rcases RowLt.total hne with hlt | hlt
        · -- `p` before `k`, equivalent: contradiction with `k` irreducible
          have hpp := hbefore p hp hlt
          refine hk' p hpp hlt ?_
          rw [images_eq_of_mem k p nk angle hi]
          have := red_mem_images k nk angle
          rwa [hkred] at this
        · exact hall k (by simp) hlt hi
    · next hmem =>
      rw [ih' p]
      constructor
      · rintro ⟨hp, hall⟩
        refine ⟨hp, ?_⟩
        intro q hq hlt
        rw [List.mem_append, List.mem_singleton] at hq
        rcases hq with hq | rfl
        · exact hall q hq hlt
        · intro hi
          rw [ih' q] at hmem
          push Not at hmem
          obtain ⟨r, hr, hlt', hir⟩ := hmem hk
          refine hall r hr ?_ ?_
          · unfold RowLt at *; omega
          · rw [← images_eq_of_mem r q nk angle hir]; exact hi
      · rintro ⟨hp, hall⟩
        exact ⟨hp, fun q hq => hall q (List.mem_append_left _ hq)⟩

/-! ### Completion -/

variable {K : Type} [DecidableEq K]

/-- What is known about the data at any stage. -/
structure Inv (pts : List P) (syms : List (P → P)) (d0 d : P → Option K) : Prop where
  keep : ∀ k v, d0 k = some v → d k = some v
  prov : ∀ k v, d k = some v → d0 k = some v ∨ ∃ j ∈ pts, d0 j = some v ∧ ∃ g ∈ syms, g j = k

omit [DecidableEq K] in
theorem fill_spec (pts : List P) (syms : List (P → P)) (d0 : P → Option K) (img : P → P)
    (himg : img ∈ syms) (irr : List P) (hirr : ∀ k ∈ irr, k ∈ pts ∧ (d0 k).isSome)
    (hok : ∀ k ∈ irr, ∀ v w, d0 k = some v → d0 (img k) = some w → v = w)
    (d : P → Option K) (h : Inv pts syms d0 d) :
    Inv pts syms d0 (fill irr img d) ∧ (∀ k ∈ irr, (fill irr img d (img k)).isSome) ∧
      ∀ k, (d k).isSome → (fill irr img d k).isSome := by
  induction irr generalizing d with
  | nil => exact ⟨h, by simp, fun k hk => hk⟩
  | cons k irr ih =>
    obtain ⟨hk, hsome⟩ := hirr k List.mem_cons_self
    obtain ⟨v, hv⟩ := Option.isSome_iff_exists.1 hsome
    have hdk := h.keep k v hv
    have h' : Inv pts syms d0 (Function.update d (img k) (d k)) := by
      constructor
      · intro j w hj
        by_cases e : j = img k
        · subst e
          rw [Function.update_self, hdk, hok k List.mem_cons_self v w hv hj]
        · rw [Function.update_of_ne e]; exact h.keep j w hj
      · intro j w hj
        by_cases e : j = img k
        · subst e
          rw [Function.update_self, hdk] at hj
          obtain rfl := Option.some.inj hj
          exact Or.inr ⟨k, hk, hv, img, himg, rfl⟩
        · rw [Function.update_of_ne e] at hj; exact h.prov j w hj
    obtain ⟨i1, i2, i3⟩ := ih (fun j hj => hirr j (List.mem_cons_of_mem _ hj))
      (fun j hj => hok j (List.mem_cons_of_mem _ hj)) _ h'
    refine ⟨i1, ?_, ?_⟩
    · intro j hj
      rcases List.mem_cons.1 hj with rfl | hj
      · exact i3 _ (by rw [Function.update_self, hdk]; rfl)
      · exact i2 j hj
    · intro j hj
      apply i3
      by_cases e : j = img k
      · subst e; rw [Function.update_self, hdk]; rfl
      · rw [Function.update_of_ne e]; exact hj

theorem accepts_spec (pts : List P) (d : P → Option K) (img : P → P) :
    accepts pts d img = true ↔ ∀ k ∈ pts, ∀ v w, d k = some v → d (img k) = some w → v = w := by
  unfold accepts
  rw [List.all_eq_true]
  constructor
  · intro h k hk v w hv hw
    have := h k hk
    rw [hv, hw] at this
    simpa using this
  · intro h k hk
    cases hv : d k with
    | none => rfl
    | some v =>
      cases hw : d (img k) with
      | none => rfl
      | some w => simpa using h k hk v w hv hw

theorem completeLoop_inv (pts : List P) (syms0 : List (P → P)) (d0 : P → Option K)
    (irr : List P) (hirr : ∀ k ∈ irr, k ∈ pts ∧ (d0 k).isSome) (syms : List (P → P))
    (hs : ∀ g ∈ syms, g ∈ syms0) (d : P → Option K) (h : Inv pts syms0 d0 d) :
    Inv pts syms0 d0 (completeLoop pts irr syms d) := by
  induction syms generalizing d with
  | nil => exact h
  | cons img syms ih =>
    have ih' := ih (fun g hg => hs g (List.mem_cons_of_mem _ hg))
    simp only [completeLoop]
    split
    · next ha =>
      rw [accepts_spec] at ha
      have := (fill_spec pts syms0 d0 img (hs img List.mem_cons_self) irr hirr
        (fun k hk v w hv hw => ha k (hirr k hk).1 v w (h.keep _ _ hv) (h.keep _ _ hw)) d h).1
      split
      · exact this
      · exact ih' _ this
    · exact ih' _ h

theorem completeLoop_total (pts : List P) (syms0 : List (P → P)) (d0 : P → Option K) (F : P → K)
    (hF : ∀ g ∈ syms0, ∀ k ∈ pts, F (g k) = F k) (h0 : ∀ k v, d0 k = some v → v = F k)
    (irr : List P) (hirr : ∀ k ∈ irr, k ∈ pts ∧ (d0 k).isSome) (syms : List (P → P))
    (hs : ∀ g ∈ syms, g ∈ syms0) (d : P → Option K) (h : Inv pts syms0 d0 d)
    (hcov : ∀ k ∈ pts, (d k).isSome ∨ ∃ g ∈ syms, ∃ j ∈ irr, g j = k) :
    ∀ k ∈ pts, (completeLoop pts irr syms d k).isSome := by
  have hval : ∀ d, Inv pts syms0 d0 d → ∀ k v, d k = some v → v = F k := by
    intro d h k v hv
    rcases h.prov k v hv with h1 | ⟨j, hj, h1, g, hg, rfl⟩
    · exact h0 k v h1
    · rw [hF g hg j hj]; exact h0 j v h1
  induction syms generalizing d with
  | nil =>
    intro k hk
    rcases hcov k hk with h1 | ⟨g, hg, _⟩
    · exact h1
    · cases hg
  | cons img syms ih =>
    have hi := hs img List.mem_cons_self
    have ih' := ih (fun g hg => hs g (List.mem_cons_of_mem _ hg))
    have hok : ∀ k ∈ pts, ∀ v w, d k = some v → d (img k) = some w → v = w := by
      intro k hk v w hv hw
      rw [hval d h k v hv, hval d h _ w hw, hF img hi k hk]
    have hacc : accepts pts d img = true := (accepts_spec pts d img).2 hok
    obtain ⟨f1, f2, f3⟩ := fill_spec pts syms0 d0 img hi irr hirr
        (fun k hk v w hv hw => hok k (hirr k hk).1 v w (h.keep _ _ hv) (h.keep _ _ hw)) d h
    simp only [completeLoop, hacc, if_true]
    split
    · next hall =>
      rw [List.all_eq_true] at hall
      exact hall
    · refine ih' _ f1 ?_
      intro k hk
      rcases hcov k hk with h1 | ⟨g, hg, j, hj, rfl⟩
      · exact Or.inl (f3 k h1)
      · rcases List.mem_cons.1 hg with rfl | hg
        · exact Or.inl (f2 j hj)
        · exact Or.inr ⟨g, hg, j, hj, rfl⟩

/-! ### The tested symmetries are the isometries -/

/-- Matrix of `refl`. -/
def reflL : Angle → Lin
  | .a60 => ⟨-1, 0, 1, 1⟩
  | .a90 => ⟨-1, 0, 0, 1⟩
  | .a120 => ⟨-1, 0, -1, 1⟩

theorem act_reflL (angle : Angle) (k : P) : (reflL angle).act k = refl angle k := by
  obtain ⟨x, y⟩ := k
  cases angle <;> simp [reflL, refl, Lin.act] <;> ring

theorem isometry_reflL (angle : Angle) : (reflL angle).Isometry angle := by
  intro k
  rw [act_reflL]
  obtain ⟨x, y⟩ := k
  cases angle <;> simp only [refl, normSq] <;> ring

/-- Number of rotations that turn the reflection into the exchange of components. -/
def swapShift : Angle → Nat
  | .a60 => 1
  | .a90 => 1
  | .a120 => 2

theorem swap_eq_refl (angle : Angle) (k : P) :
    ((k.2, k.1) : P) = refl angle ((rot angle)^[swapShift angle] k) := by
  obtain ⟨x, y⟩ := k
  cases angle <;> simp [swapShift, rot, refl, Function.iterate_succ_apply]

theorem iterate_mod (angle : Angle) (n : Nat) (k : P) :
    (rot angle)^[n % nrot angle] k = (rot angle)^[n] k := by
  conv_rhs => rw [← Nat.mod_add_div n (nrot angle)]
  rw [Function.iterate_add_apply]
  congr 1
  rw [Function.iterate_mul]
  have : (rot angle)^[nrot angle] = id := funext (rot_six angle)
  rw [this, Function.iterate_id, id]

theorem mem_symMaps (angle : Angle) (nk : Int) (g : P → P) :
    g ∈ symMaps angle nk ↔ ∃ reflect n, n < nrot angle ∧ (reflect = true ∨ n ≠ 0) ∧
      g = symMap angle nk reflect n := by
  simp only [symMaps, List.mem_flatMap, List.mem_map, List.mem_filter, List.mem_range,
    Bool.or_eq_true, bne_iff_ne, ne_eq]
  constructor
  · rintro ⟨r, _, n, ⟨hn, h⟩, rfl⟩; exact ⟨r, n, hn, h, rfl⟩
  · rintro ⟨r, n, hn, h, rfl⟩; exact ⟨r, by cases r <;> simp, n, ⟨hn, h⟩, rfl⟩

/-- Every image of a mesh point is the point itself or found by one of the tested symmetries. -/
theorem images_symMaps (angle : Angle) (nk : Int) (k p : P) (h : p ∈ images k nk angle) :
    p = red nk k ∨ ∃ g ∈ symMaps angle nk, p = g k := by
  obtain ⟨n, rfl | rfl⟩ := (mem_images _ _ _ _).1 h
  · by_cases h0 : n % nrot angle = 0
    · left; rw [← iterate_mod, h0]; rfl
    · right
      refine ⟨_, (mem_symMaps _ _ _).2 ⟨false, n % nrot angle, Nat.mod_lt _ (nrot_pos angle),
        Or.inr h0, rfl⟩, ?_⟩
      simp [symMap, iterate_mod]
  · right
    refine ⟨_, (mem_symMaps _ _ _).2 ⟨true, (swapShift angle + n) % nrot angle,
      Nat.mod_lt _ (nrot_pos angle), Or.inl rfl, rfl⟩, ?_⟩
    simp only [symMap, if_true]
    rw [swap_eq_refl angle, iterate_mod, Function.iterate_add_apply]

theorem symMaps_isometry (angle : Angle) (nk : Int) (g : P → P) (h : g ∈ symMaps angle nk) :
    ∃ A : Lin, A.Isometry angle ∧ ∀ k, g k = red nk (A.act k) := by
  obtain ⟨r, n, _, _, rfl⟩ := (mem_symMaps _ _ _).1 h
  cases r
  · exact ⟨_, isometry_rotPow angle n, fun k => by simp [symMap, act_rotPow]⟩
  · exact ⟨_, isometry_mul (isometry_reflL angle) (isometry_rotPow angle n), fun k => by
      simp [symMap, Lin.act_mul, act_rotPow, act_reflL]⟩

end Verif.Mesh
