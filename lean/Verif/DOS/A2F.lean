import Verif.DOS.Props

/-!
# Model of `elphmod/dos.py`: `hexa2F` (C70)
-/

namespace Verif.DOS

open MeasureTheory

/-- Energies at the corners of a triangle, ascending, and couplings in the same order. -/
structure TriC extends Tri where
  a : ℝ
  b : ℝ
  c : ℝ

/-- `sorted([p, q, r], key=lambda x: energies[x])` (stable), applied to pairs of energy and coupling. -/
noncomputable def sortBy3 (p q r : ℝ × ℝ) : TriC :=
  let x := if q.1 < p.1 then q else p
  let y := if q.1 < p.1 then p else q
  if r.1 < x.1 then ⟨⟨r.1, x.1, y.1⟩, r.2, x.2, y.2⟩
  else if r.1 < y.1 then ⟨⟨x.1, r.1, y.1⟩, x.2, r.2, y.2⟩
  else ⟨⟨x.1, y.1, r.1⟩, x.2, y.2, r.2⟩

/-- `elphmod/dos.py` 152-161, 169-172: triangles with energies and couplings. -/
noncomputable def trianglesC (N : Nat) (e g : Nat → Nat → ℝ) : List TriC :=
  (List.range N).flatMap fun i =>
    (List.range N).flatMap fun j =>
      (List.range 2).map fun k =>
        sortBy3 (e ((i + k) % N) ((j + k) % N), g ((i + k) % N) ((j + k) % N))
          (e ((i + 1) % N) j, g ((i + 1) % N) j) (e i ((j + 1) % N), g i ((j + 1) % N))

open Classical in
/-- `elphmod/dos.py` 163-167: optional energy window. -/
noncomputable def windowC (minimum maximum : Option ℝ) (ts : List TriC) : List TriC :=
  let ts := match minimum with
    | none => ts
    | some m => ts.filter fun v => decide (m ≤ v.C)
  match maximum with
  | none => ts
  | some m => ts.filter fun v => decide (v.A ≤ m)

open Classical in
/-- `elphmod/dos.py` 177-197: contribution `D[n]` of one triangle. -/
noncomputable def contributionC (E : ℝ) (v : TriC) : WithTop ℝ :=
  if v.A < E ∧ E ≤ v.B then
    if E = v.B ∧ v.B = v.C then ((0.5 / (E - v.A) * 0.5 * (v.b + v.c) : ℝ) : WithTop ℝ)
    else (((E - v.A) / (v.B - v.A) / (v.C - v.A) * 0.5 * (
      ((E - v.A) * v.b + (v.B - E) * v.a) / (v.B - v.A) +
      ((E - v.A) * v.c + (v.C - E) * v.a) / (v.C - v.A)) : ℝ) : WithTop ℝ)
  else if v.B ≤ E ∧ E < v.C then
    if E = v.A ∧ v.A = v.B then ((0.5 / (v.C - E) * 0.5 * (v.a + v.b) : ℝ) : WithTop ℝ)
    else (((v.C - E) / (v.C - v.A) / (v.C - v.B) * 0.5 * (
      ((v.C - E) * v.a + (E - v.A) * v.c) / (v.C - v.A) +
      ((v.C - E) * v.b + (E - v.B) * v.c) / (v.C - v.B)) : ℝ) : WithTop ℝ)
  else if E = v.A ∧ v.A = v.B ∧ v.B = v.C then ⊤
  else 0

/-- `elphmod/dos.py` 117-202 (`hexa2F`) with `size` processes. -/
noncomputable def hexa2F (size N : Nat) (e g : Nat → Nat → ℝ) (minimum maximum : Option ℝ) (E : ℝ) :
    WithTop ℝ :=
  (∑ rank ∈ Finset.range size,
    ((Verif.MPI.deal size rank (windowC minimum maximum (trianglesC N e g))).map (contributionC E)).sum).map
      (· / (N : ℝ) ^ 2)

/-! ### Lemmas -/

theorem sortBy3_le (p q r : ℝ × ℝ) :
    (sortBy3 p q r).A ≤ (sortBy3 p q r).B ∧ (sortBy3 p q r).B ≤ (sortBy3 p q r).C := by
  unfold sortBy3
  by_cases h1 : q.1 < p.1
  · simp only [if_pos h1]
    split
    · constructor <;> simp only <;> linarith
    · split
      · constructor <;> simp only <;> linarith
      · constructor <;> simp only <;> linarith
  · simp only [if_neg h1]
    split
    · constructor <;> simp only <;> linarith
    · split
      · constructor <;> simp only <;> linarith
      · constructor <;> simp only <;> linarith

theorem sortBy3_sum (p q r : ℝ × ℝ) :
    (sortBy3 p q r).a + (sortBy3 p q r).b + (sortBy3 p q r).c = p.2 + q.2 + r.2 := by
  unfold sortBy3
  by_cases h1 : q.1 < p.1
  · simp only [if_pos h1]
    split
    · simp only; ring
    · split <;> simp only <;> ring
  · simp only [if_neg h1]
    split
    · simp only; ring
    · split <;> simp only <;> ring

theorem sortBy3_range (p q r : ℝ × ℝ) (P : ℝ → Prop) (hp : P p.2) (hq : P q.2) (hr : P r.2) :
    P (sortBy3 p q r).a ∧ P (sortBy3 p q r).b ∧ P (sortBy3 p q r).c := by
  unfold sortBy3
  by_cases h1 : q.1 < p.1
  · simp only [if_pos h1]
    split
    · exact ⟨hr, hq, hp⟩
    · split
      · exact ⟨hq, hr, hp⟩
      · exact ⟨hq, hp, hr⟩
  · simp only [if_neg h1]
    split
    · exact ⟨hr, hp, hq⟩
    · split
      · exact ⟨hp, hr, hq⟩
      · exact ⟨hp, hq, hr⟩

theorem sortBy3_sort3 (p q r : ℝ × ℝ) : (sortBy3 p q r).toTri = sort3 p.1 q.1 r.1 := by
  unfold sortBy3 sort3
  by_cases h1 : q.1 < p.1
  · simp only [if_pos h1, min_eq_right h1.le, max_eq_left h1.le]
    split
    · rename_i h2
      rw [min_eq_right h2.le, min_eq_right (h2.le.trans h1.le), max_eq_left h2.le,
        max_eq_left (h2.le.trans h1.le)]
    · rename_i h2
      rw [min_eq_left (not_lt.1 h2)]
      split
      · rename_i h3
        rw [min_eq_right h3.le, max_eq_right (not_lt.1 h2), max_eq_left h3.le]
      · rename_i h3
        rw [min_eq_left (not_lt.1 h3), max_eq_right h1.le, max_eq_right (not_lt.1 h3)]
  · simp only [if_neg h1, min_eq_left (not_lt.1 h1), max_eq_right (not_lt.1 h1)]
    split
    · rename_i h2
      rw [min_eq_right h2.le, min_eq_right (h2.le.trans (not_lt.1 h1)), max_eq_left h2.le,
        max_eq_left (h2.le.trans (not_lt.1 h1))]
    · rename_i h2
      rw [min_eq_left (not_lt.1 h2)]
      split
      · rename_i h3
        rw [min_eq_right h3.le, max_eq_right (not_lt.1 h2), max_eq_left h3.le]
      · rename_i h3
        rw [min_eq_left (not_lt.1 h3), max_eq_right (not_lt.1 h1), max_eq_right (not_lt.1 h3)]

theorem trianglesC_toTri (N : Nat) (e g : Nat → Nat → ℝ) :
    (trianglesC N e g).map TriC.toTri = triangles N e := by
  unfold trianglesC triangles
  simp only [List.map_flatMap, List.map_map, Function.comp_def, sortBy3_sort3]

theorem hexa2F_eq (size : Nat) (hs : 0 < size) (N : Nat) (e g : Nat → Nat → ℝ) (lo hi : Option ℝ) (E : ℝ) :
    hexa2F size N e g lo hi E =
      (((windowC lo hi (trianglesC N e g)).map (contributionC E)).sum).map (· / (N : ℝ) ^ 2) := by
  unfold hexa2F
  rw [(Verif.MPI.C03_sum (contributionC E) size hs _).1]

theorem mem_windowC (lo hi : Option ℝ) (ts : List TriC) (v : TriC) (h : v ∈ windowC lo hi ts) : v ∈ ts := by
  unfold windowC at h
  cases lo <;> cases hi <;> simp only [List.mem_filter] at h
  · exact h
  · exact h.1
  · exact h.1
  · exact h.1.1

theorem windowC_toTri (lo hi : Option ℝ) (ts : List TriC) :
    (windowC lo hi ts).map TriC.toTri = window lo hi (ts.map TriC.toTri) := by
  unfold windowC window
  cases lo <;> cases hi <;> simp only [List.filter_map] <;> rfl

/-- With the same coupling at all corners the contribution is the density of states times the coupling,
unless the triangle is flat. -/
theorem contributionC_const (E : ℝ) (v : TriC) (g : ℝ) (ha : v.a = g) (hb : v.b = g) (hc : v.c = g)
    (h : v.A ≤ v.B) (h' : v.B ≤ v.C) :
    contributionC E v = (contribution E v.toTri).map (g * ·) := by
  unfold contributionC contribution
  rw [ha, hb, hc]
  split
  · rename_i h1
    split
    · rw [WithTop.map_coe]
      congr 1
      ring
    · rename_i h2
      rw [WithTop.map_coe]
      congr 1
      have hBA : v.B - v.A ≠ 0 := by linarith
      have hCA : v.C - v.A ≠ 0 := by linarith
      field_simp
      ring
  · split
    · rename_i h1
      split
      · rw [WithTop.map_coe]
        congr 1
        ring
      · rename_i h2
        rw [WithTop.map_coe]
        congr 1
        have hCB : v.C - v.B ≠ 0 := by linarith
        have hCA : v.C - v.A ≠ 0 := by linarith
        field_simp
        ring
    · split
      · rfl
      · rw [← WithTop.coe_zero, WithTop.map_coe, mul_zero]

theorem mem_trianglesC (N : Nat) (e g : Nat → Nat → ℝ) (v : TriC) (hv : v ∈ trianglesC N e g) :
    v.A ≤ v.B ∧ v.B ≤ v.C := by
  apply mem_triangles N e
  rw [← trianglesC_toTri N e g]
  exact List.mem_map_of_mem hv

theorem map_mul_add (g : ℝ) (x y : WithTop ℝ) :
    (x + y).map (g * ·) = x.map (g * ·) + y.map (g * ·) := by
  cases x with
  | top => rfl
  | coe a =>
    cases y with
    | top => rfl
    | coe b =>
      rw [← WithTop.coe_add, WithTop.map_coe, WithTop.map_coe, WithTop.map_coe, ← WithTop.coe_add, mul_add]

/-- C70 (constant coupling). With the same coupling everywhere, the spectral function is the density of
states times the coupling. -/
theorem C70_constant (size : Nat) (hs : 0 < size) (N : Nat) (e : Nat → Nat → ℝ) (g : ℝ) (lo hi : Option ℝ)
    (E : ℝ) :
    hexa2F size N e (fun _ _ => g) lo hi E = (hexDOS size N e lo hi E).map (g * ·) := by
  rw [hexa2F_eq size hs, hexDOS_eq size hs, ← trianglesC_toTri N e (fun _ _ => g), ← windowC_toTri]
  have hall : ∀ v ∈ windowC lo hi (trianglesC N e fun _ _ => g),
      contributionC E v = (contribution E v.toTri).map (g * ·) := by
    intro v hv
    have hv' := mem_windowC _ _ _ _ hv
    have h1 := mem_trianglesC _ _ _ v hv'
    unfold trianglesC at hv'
    simp only [List.mem_flatMap, List.mem_map] at hv'
    obtain ⟨i, _, j, _, k, _, rfl⟩ := hv'
    have := sortBy3_range (e ((i + k) % N) ((j + k) % N), g) (e ((i + 1) % N) j, g) (e i ((j + 1) % N), g)
      (· = g) rfl rfl rfl
    exact contributionC_const E _ g this.1 this.2.1 this.2.2 h1.1 h1.2
  revert hall
  generalize windowC lo hi (trianglesC N e fun _ _ => g) = ts
  intro hall
  have : (ts.map (contributionC E)).sum =
      (((ts.map TriC.toTri).map (contribution E)).sum).map (g * ·) := by
    clear hs
    induction ts with
    | nil => simp only [List.map_nil, List.sum_nil]; rw [← WithTop.coe_zero, WithTop.map_coe, mul_zero]
    | cons v ts ih =>
      simp only [List.map_cons, List.sum_cons]
      rw [map_mul_add, hall v List.mem_cons_self, ih fun w hw => hall w (List.mem_cons_of_mem _ hw)]
  rw [this]
  generalize ((ts.map TriC.toTri).map (contribution E)).sum = s
  cases s with
  | top => rfl
  | coe x =>
    simp only [WithTop.map_coe]
    rw [mul_div_assoc]

example := C70_constant 4 (by norm_num) 12 (fun i j => (i : ℝ) + 2 * j) 3 none none 0.5

theorem contributionC_nonneg (E : ℝ) (v : TriC) (ha : 0 ≤ v.a) (hb : 0 ≤ v.b) (hc : 0 ≤ v.c)
    (h : v.A ≤ v.B) (h' : v.B ≤ v.C) : 0 ≤ contributionC E v := by
  unfold contributionC
  split
  · rename_i h1
    have hBA : 0 ≤ v.B - v.A := by linarith
    have hCA : 0 ≤ v.C - v.A := by linarith
    have hEA : 0 ≤ E - v.A := by linarith
    have hBE : 0 ≤ v.B - E := by linarith
    have hCE : 0 ≤ v.C - E := by linarith
    split
    · apply WithTop.coe_nonneg.2
      positivity
    · apply WithTop.coe_nonneg.2
      positivity
  · split
    · rename_i h1
      have hCB : 0 ≤ v.C - v.B := by linarith
      have hCA : 0 ≤ v.C - v.A := by linarith
      have hEA : 0 ≤ E - v.A := by linarith
      have hEB : 0 ≤ E - v.B := by linarith
      have hCE : 0 ≤ v.C - E := by linarith
      split
      · apply WithTop.coe_nonneg.2
        positivity
      · apply WithTop.coe_nonneg.2
        positivity
    · split
      · exact le_top
      · exact le_refl _

/-- C70 (nonnegative). With nonnegative couplings the spectral function is nonnegative. -/
theorem C70_nonneg (size : Nat) (hs : 0 < size) (N : Nat) (e g : Nat → Nat → ℝ)
    (hg : ∀ i j, i < N → j < N → 0 ≤ g i j) (lo hi : Option ℝ) (E : ℝ) :
    0 ≤ hexa2F size N e g lo hi E := by
  rw [hexa2F_eq size hs]
  have h : 0 ≤ ((windowC lo hi (trianglesC N e g)).map (contributionC E)).sum := by
    apply List.sum_nonneg
    intro x hx
    obtain ⟨v, hv, rfl⟩ := List.mem_map.1 hx
    have hv' := mem_windowC _ _ _ _ hv
    have := mem_trianglesC N e g v hv'
    unfold trianglesC at hv'
    simp only [List.mem_flatMap, List.mem_map, List.mem_range] at hv'
    obtain ⟨i, hi, j, hj, k, _, rfl⟩ := hv'
    have hN : 0 < N := by omega
    have h3 := sortBy3_range (e ((i + k) % N) ((j + k) % N), g ((i + k) % N) ((j + k) % N))
      (e ((i + 1) % N) j, g ((i + 1) % N) j) (e i ((j + 1) % N), g i ((j + 1) % N)) (0 ≤ ·)
      (hg _ _ (Nat.mod_lt _ hN) (Nat.mod_lt _ hN)) (hg _ _ (Nat.mod_lt _ hN) hj) (hg _ _ hi (Nat.mod_lt _ hN))
    exact contributionC_nonneg E _ h3.1 h3.2.1 h3.2.2 this.1 this.2
  revert h
  generalize ((windowC lo hi (trianglesC N e g)).map (contributionC E)).sum = s
  cases s with
  | top => intro _; exact le_top
  | coe x =>
    intro h
    rw [WithTop.map_coe]
    exact WithTop.coe_nonneg.2 (div_nonneg (WithTop.coe_nonneg.1 h) (by positivity))

example := C70_nonneg 4 (by norm_num) 12 (fun i j => (i : ℝ) + 2 * j) (fun i _ => i) (fun _ _ _ _ => by positivity) none none 0.5

/-! ### Integral -/

/-- Piecewise quadratic form of the contribution. -/
noncomputable def pieceC (v : TriC) : ℝ → ℝ :=
  (Set.Ioc v.A v.B).indicator (fun E => (E - v.A) / (v.B - v.A) / (v.C - v.A) * 0.5 * (
      ((E - v.A) * v.b + (v.B - E) * v.a) / (v.B - v.A) +
      ((E - v.A) * v.c + (v.C - E) * v.a) / (v.C - v.A))) +
    (Set.Ioc v.B v.C).indicator (fun E => (v.C - E) / (v.C - v.A) / (v.C - v.B) * 0.5 * (
      ((v.C - E) * v.a + (E - v.A) * v.c) / (v.C - v.A) +
      ((v.C - E) * v.b + (E - v.B) * v.c) / (v.C - v.B)))

theorem contributionC_piece (v : TriC) (E : ℝ) (hA : E ≠ v.A) (hB : E ≠ v.B) (hC : E ≠ v.C) :
    contributionC E v = (pieceC v E : ℝ) := by
  unfold contributionC pieceC
  simp only [Pi.add_apply, Set.indicator, Set.mem_Ioc]
  by_cases h1 : v.A < E ∧ E ≤ v.B
  · rw [if_pos h1, if_neg (fun h => hB h.1), if_pos h1, if_neg (fun h => absurd h.1 (not_lt.2 h1.2)),
      add_zero]
  · rw [if_neg h1, if_neg h1]
    by_cases h2 : v.B ≤ E ∧ E < v.C
    · rw [if_pos h2, if_neg (fun h => hA h.1), if_pos ⟨lt_of_le_of_ne h2.1 (Ne.symm hB), h2.2.le⟩,
        zero_add]
    · rw [if_neg h2, if_neg (fun h => hA h.1), if_neg, add_zero, WithTop.coe_zero]
      rintro ⟨h3, h4⟩
      exact h2 ⟨h3.le, lt_of_le_of_ne h4 hC⟩

theorem sum_pieceC (ts : List TriC) (E : ℝ) (hE : E ∉ corners (ts.map TriC.toTri)) :
    (ts.map (contributionC E)).sum = (((ts.map fun v => pieceC v E).sum : ℝ) : WithTop ℝ) := by
  induction ts with
  | nil => simp
  | cons v ts ih =>
    have h1 : E ∉ corners (ts.map TriC.toTri) := fun ⟨w, hw, h⟩ => hE ⟨w, List.mem_cons_of_mem _ hw, h⟩
    have h2 : ¬ (E = v.A ∨ E = v.B ∨ E = v.C) := fun h => hE ⟨v.toTri, List.mem_cons_self, h⟩
    push Not at h2
    rw [List.map_cons, List.sum_cons, ih h1, contributionC_piece v E h2.1 h2.2.1 h2.2.2, List.map_cons,
      List.sum_cons, WithTop.coe_add]

theorem pieceC_integrals (v : TriC) (h : v.A ≤ v.B) (h' : v.B ≤ v.C) (hne : v.A < v.C) :
    Integrable (pieceC v) ∧ ∫ E, pieceC v E = (v.a + v.b + v.c) / 6 := by
  have i1 : Integrable ((Set.Ioc v.A v.B).indicator fun E => (E - v.A) / (v.B - v.A) / (v.C - v.A) * 0.5 * (
      ((E - v.A) * v.b + (v.B - E) * v.a) / (v.B - v.A) +
      ((E - v.A) * v.c + (v.C - E) * v.a) / (v.C - v.A))) := by
    rw [integrable_indicator_iff measurableSet_Ioc]
    exact (Continuous.integrableOn_Ioc (by fun_prop))
  have i2 : Integrable ((Set.Ioc v.B v.C).indicator fun E => (v.C - E) / (v.C - v.A) / (v.C - v.B) * 0.5 * (
      ((v.C - E) * v.a + (E - v.A) * v.c) / (v.C - v.A) +
      ((v.C - E) * v.b + (E - v.B) * v.c) / (v.C - v.B))) := by
    rw [integrable_indicator_iff measurableSet_Ioc]
    exact (Continuous.integrableOn_Ioc (by fun_prop))
  refine ⟨i1.add i2, ?_⟩
  unfold pieceC
  rw [integral_add' i1 i2, integral_indicator measurableSet_Ioc, integral_indicator measurableSet_Ioc,
    ← intervalIntegral.integral_of_le h, ← intervalIntegral.integral_of_le h']
  have hCA : v.C - v.A ≠ 0 := by linarith
  have f1 : v.A < v.B → ∫ E in v.A..v.B, (E - v.A) / (v.B - v.A) / (v.C - v.A) * 0.5 * (
      ((E - v.A) * v.b + (v.B - E) * v.a) / (v.B - v.A) +
      ((E - v.A) * v.c + (v.C - E) * v.a) / (v.C - v.A)) =
      (v.B - v.A) / (v.C - v.A) * 0.5 * ((v.a / 2 + (v.b - v.a) / 3) +
        (v.a / 2 + (v.c - v.a) * (v.B - v.A) / (v.C - v.A) / 3)) := by
    intro hlt
    have hBA : v.B - v.A ≠ 0 := by linarith
    have e1 : (fun E => (E - v.A) / (v.B - v.A) / (v.C - v.A) * 0.5 * (
        ((E - v.A) * v.b + (v.B - E) * v.a) / (v.B - v.A) +
        ((E - v.A) * v.c + (v.C - E) * v.a) / (v.C - v.A))) = fun E =>
        (0.5 / (v.B - v.A) / (v.C - v.A) * (-v.A * (2 * v.a) +
          v.A ^ 2 * ((v.b - v.a) / (v.B - v.A) + (v.c - v.a) / (v.C - v.A)))) +
        (0.5 / (v.B - v.A) / (v.C - v.A) * (2 * v.a
          - 2 * v.A * ((v.b - v.a) / (v.B - v.A) + (v.c - v.a) / (v.C - v.A)))) * E +
        (0.5 / (v.B - v.A) / (v.C - v.A) * ((v.b - v.a) / (v.B - v.A) + (v.c - v.a) / (v.C - v.A))) * E ^ 2 := by
      funext E
      field_simp
      ring
    rw [e1, integral_linear]
    field_simp
    ring
  have f2 : v.B < v.C → ∫ E in v.B..v.C, (v.C - E) / (v.C - v.A) / (v.C - v.B) * 0.5 * (
      ((v.C - E) * v.a + (E - v.A) * v.c) / (v.C - v.A) +
      ((v.C - E) * v.b + (E - v.B) * v.c) / (v.C - v.B)) =
      (v.C - v.B) / (v.C - v.A) * 0.5 * ((v.c / 2 + (v.b - v.c) / 3) +
        (v.c / 2 + (v.a - v.c) * (v.C - v.B) / (v.C - v.A) / 3)) := by
    intro hlt
    have hCB : v.C - v.B ≠ 0 := by linarith
    have e1 : (fun E => (v.C - E) / (v.C - v.A) / (v.C - v.B) * 0.5 * (
        ((v.C - E) * v.a + (E - v.A) * v.c) / (v.C - v.A) +
        ((v.C - E) * v.b + (E - v.B) * v.c) / (v.C - v.B))) = fun E =>
        (0.5 / (v.C - v.A) / (v.C - v.B) * (v.C * (2 * v.c) +
          v.C ^ 2 * ((v.a - v.c) / (v.C - v.A) + (v.b - v.c) / (v.C - v.B)))) +
        (0.5 / (v.C - v.A) / (v.C - v.B) * (-(2 * v.c)
          - 2 * v.C * ((v.a - v.c) / (v.C - v.A) + (v.b - v.c) / (v.C - v.B)))) * E +
        (0.5 / (v.C - v.A) / (v.C - v.B) * ((v.a - v.c) / (v.C - v.A) + (v.b - v.c) / (v.C - v.B))) * E ^ 2 := by
      funext E
      field_simp
      ring
    rw [e1, integral_linear]
    field_simp
    ring
  rcases eq_or_lt_of_le h with hAB | hAB
  · have hlt : v.B < v.C := by rw [← hAB]; exact hne
    rw [f2 hlt, hAB, intervalIntegral.integral_same]
    have hCB : v.C - v.B ≠ 0 := by linarith
    field_simp
    ring
  · rcases eq_or_lt_of_le h' with hBC | hBC
    · rw [f1 hAB, hBC, intervalIntegral.integral_same]
      field_simp
      ring
    · rw [f1 hAB, f2 hBC]
      field_simp
      ring

theorem integral_piecesC (ts : List TriC) (h : ∀ v ∈ ts, v.A ≤ v.B ∧ v.B ≤ v.C ∧ v.A < v.C) :
    Integrable (fun E => (ts.map fun v => pieceC v E).sum) ∧
    ∫ E, (ts.map fun v => pieceC v E).sum = (ts.map fun v => v.a + v.b + v.c).sum / 6 := by
  induction ts with
  | nil => simp
  | cons v ts ih =>
    obtain ⟨h1, h2⟩ := ih fun w hw => h w (List.mem_cons_of_mem _ hw)
    obtain ⟨ha, hb, hc⟩ := h v List.mem_cons_self
    obtain ⟨h3, h4⟩ := pieceC_integrals v ha hb hc
    simp only [List.map_cons, List.sum_cons]
    refine ⟨h3.add h1, ?_⟩
    rw [integral_add h3 h1, h2, h4]
    ring

theorem sum_couplings (N : Nat) (e g : Nat → Nat → ℝ) :
    ((trianglesC N e g).map fun v => v.a + v.b + v.c).sum =
      6 * ∑ i ∈ Finset.range N, ∑ j ∈ Finset.range N, g i j := by
  have : ((trianglesC N e g).map fun v => v.a + v.b + v.c) =
      ((triangles N g).map fun v => v.A + v.B + v.C) := by
    unfold trianglesC triangles
    simp only [List.map_flatMap, List.map_map, Function.comp_def, sortBy3_sum, sort3_sum]
  rw [this, sum_corners]

/-- C70 (integral; partial: meshes without flat triangles). The spectral function integrates to the
arithmetic mean of the couplings, as documented, no matter how they correlate with the energies. -/
theorem C70_integral_partial (size : Nat) (hs : 0 < size) (N : Nat) (e g : Nat → Nat → ℝ) (h : NoFlat N e) :
    ∫ E, val (hexa2F size N e g none none E) =
      (∑ i ∈ Finset.range N, ∑ j ∈ Finset.range N, g i j) / (N : ℝ) ^ 2 := by
  have h0 : volume (corners (triangles N e)) = 0 := (corners_finite _).measure_zero _
  have hae : (fun E => val (hexa2F size N e g none none E)) =ᵐ[volume]
      fun E => ((trianglesC N e g).map fun v => pieceC v E).sum / (N : ℝ) ^ 2 := by
    have : ∀ᵐ E ∂volume, E ∉ corners (triangles N e) := measure_eq_zero_iff_ae_notMem.1 h0
    filter_upwards [this] with E hE
    rw [hexa2F_eq size hs]
    have : windowC none none (trianglesC N e g) = trianglesC N e g := rfl
    rw [this, sum_pieceC _ _ (by rw [trianglesC_toTri]; exact hE), WithTop.map_coe]
    rfl
  rw [integral_congr_ae hae, integral_div, (integral_piecesC _ _).2, sum_couplings]
  · ring
  · intro v hv
    apply noFlat_triangles N e h v.toTri
    rw [← trianglesC_toTri N e g]
    exact List.mem_map_of_mem hv

example := C70_integral_partial 4 (by norm_num) 2 (fun i j => ((2 * i + j : Nat) : ℝ)) (fun i j => (i : ℝ) - j) (by
  intro i j k hi hj hk
  interval_cases i <;> interval_cases j <;> interval_cases k <;> norm_num)

/-- C70 is violated for flat bands: the integral is zero although the mean coupling is not. -/
theorem C70_violated (size : Nat) (hs : 0 < size) (N : Nat) (hN : 0 < N) (e0 : ℝ) :
    ∫ E, val (hexa2F size N (fun _ _ => e0) (fun _ _ => 1) none none E) ≠
      (∑ i ∈ Finset.range N, ∑ j ∈ Finset.range N, (1 : ℝ)) / (N : ℝ) ^ 2 := by
  have h : (fun E => val (hexa2F size N (fun _ _ => e0) (fun _ _ => 1) none none E)) =
      fun E => val (hexDOS size N (fun _ _ => e0) none none E) := by
    funext E
    rw [C70_constant size hs]
    generalize hexDOS size N (fun _ _ => e0) none none E = x
    cases x with
    | top => rfl
    | coe x => rw [WithTop.map_coe, one_mul]
  rw [h, (C34_violated size hs N hN e0).2.2]
  have : (N : ℝ) ≠ 0 := by exact_mod_cast hN.ne'
  have h1 : (N : ℝ) * N / (N : ℝ) ^ 2 = 1 := by field_simp
  simp [h1]

example := C70_violated 4 (by norm_num) 12 (by norm_num) 0.5

end Verif.DOS
