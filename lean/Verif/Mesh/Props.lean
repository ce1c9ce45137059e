import Verif.Mesh.Lemmas
import Mathlib.Analysis.SpecialFunctions.Trigonometric.Basic

/-! # Properties C19-C21

The specification uses integer matrices `Lin` acting on pairs of indices (`Lin.act`), the squared
length `normSq` of a lattice vector and `Lin.Isometry` (length-preserving matrices), all defined in
`Verif.Mesh.Lemmas` without reference to the model. -/

namespace Verif.Mesh

/-! ## C19 -/

/-- `q` is a mesh point equivalent to `k`: there is a length-preserving linear map of the lattice
(rotation or reflection) that takes `k` to `q` up to multiples of `nk`. -/
def SymEquiv (angle : Angle) (nk : Int) (k q : P) : Prop :=
  ∃ A : Lin, A.Isometry angle ∧ nk ∣ q.1 - (A.act k).1 ∧ nk ∣ q.2 - (A.act k).2

/-- Points of the mesh. -/
def OnMesh (nk : Nat) (p : P) : Prop := (0 ≤ p.1 ∧ p.1 < nk) ∧ (0 ≤ p.2 ∧ p.2 < nk)

/-- C19, termination: the loop of `images` stops after at most six new points. -/
theorem C19_terminates (k : P) (nk : Int) (angle : Angle) :
    (imagesLoop angle nk 7 ∅ k).isSome := by
  obtain ⟨S, h, _⟩ := imagesLoop_spec angle nk k
  rw [h]; rfl

/-- C19: the result consists of exactly those mesh points that are equivalent to the given point
by a length-preserving map of the lattice. -/
theorem C19_images (k : P) (nk : Int) (hnk : 0 < nk) (angle : Angle) (q : P) :
    q ∈ images k nk angle ↔
      (0 ≤ q.1 ∧ q.1 < nk) ∧ (0 ≤ q.2 ∧ q.2 < nk) ∧ SymEquiv angle nk k q := by
  rw [mem_images_isometry]
  have hb : ∀ a : Int, 0 ≤ a % nk ∧ a % nk < nk := fun a =>
    ⟨Int.emod_nonneg _ hnk.ne', Int.emod_lt_of_pos _ hnk⟩
  constructor
  · rintro ⟨A, hA, rfl⟩
    refine ⟨hb _, hb _, A, hA, ?_, ?_⟩
    · exact Int.ModEq.dvd (Int.mod_modEq _ _).symm
    · exact Int.ModEq.dvd (Int.mod_modEq _ _).symm
  · rintro ⟨h1, h2, A, hA, d1, d2⟩
    refine ⟨A, hA, ?_⟩
    have e1 : (A.act k).1 % nk = q.1 % nk := (Int.modEq_iff_dvd.2 d1)
    have e2 : (A.act k).2 % nk = q.2 % nk := (Int.modEq_iff_dvd.2 d2)
    rw [Int.emod_eq_of_lt h1.1 h1.2] at e1
    rw [Int.emod_eq_of_lt h2.1 h2.2] at e2
    exact Prod.ext e1.symm e2.symm

/-- C19: "is an image of" is an equivalence relation on mesh points, and equivalent points have
the same images. -/
theorem C19_equivalence (nk : Nat) (angle : Angle) :
    (∀ k, OnMesh nk k → k ∈ images k nk angle) ∧
    (∀ k, OnMesh nk k → ∀ p, p ∈ images k nk angle → k ∈ images p nk angle) ∧
    (∀ k p q, p ∈ images k nk angle → q ∈ images p nk angle → q ∈ images k nk angle) ∧
    (∀ k p, p ∈ images k nk angle → images p nk angle = images k nk angle) := by
  have hm : ∀ p, OnMesh nk p ↔ p ∈ meshPoints nk := fun p => (mem_meshPoints nk p).symm
  simp only [hm]
  refine ⟨?_, ?_, ?_, ?_⟩
  · intro k hk
    have := red_mem_images k nk angle
    rwa [red_of_mem hk] at this
  · intro k hk p hp
    rw [images_eq_of_mem k p nk angle hp]
    have := red_mem_images k nk angle
    rwa [red_of_mem hk] at this
  · intro k p q hp hq
    rwa [← images_eq_of_mem k p nk angle hp]
  · intro k p hp
    exact images_eq_of_mem k p nk angle hp

/-- C19: the result depends on the class of the point modulo `nk` only. -/
theorem C19_periodic (k : P) (nk : Int) (angle : Angle) (m n : Int) :
    images (k.1 + m * nk, k.2 + n * nk) nk angle = images k nk angle := by
  ext q
  rw [mem_images_isometry, mem_images_isometry]
  have hr : red nk (k.1 + m * nk, k.2 + n * nk) = red nk k := by simp [red]
  constructor
  · rintro ⟨A, hA, rfl⟩
    exact ⟨A, hA, by rw [← red_act_red, hr, red_act_red]⟩
  · rintro ⟨A, hA, rfl⟩
    exact ⟨A, hA, by rw [← red_act_red, ← hr, red_act_red]⟩

example : images (1, 0) 6 .a60 = {(1, 0), (0, 1), (5, 1), (5, 0), (0, 5), (1, 5)} := by decide
example : (Lin.mk 0 (-1) 1 1).Isometry .a60 := fun k => by simp only [Lin.act, normSq]; ring

/-! ## C20 -/

/-- Row-major order of mesh points: `p` is listed before `q`. -/
def Before (p q : P) : Prop := p.1 < q.1 ∨ (p.1 = q.1 ∧ p.2 < q.2)

/-- C20: a mesh point is in the result if and only if no equivalent mesh point comes before it. -/
theorem C20_irreducibles (nk : Nat) (angle : Angle) (p : P) :
    p ∈ irreducibles nk angle ↔ OnMesh nk p ∧
      ∀ q, OnMesh nk q → SymEquiv angle nk q p → ¬ Before q p := by
  have hm : ∀ p, OnMesh nk p ↔ p ∈ meshPoints nk := fun p => (mem_meshPoints nk p).symm
  simp only [hm]
  unfold irreducibles
  rw [irr_fold nk angle (meshPoints nk) [] (by simp)]
  constructor
  · rintro ⟨hp, h⟩
    refine ⟨hp, fun q hq hs hlt => h q hq hlt ?_⟩
    obtain ⟨h1, h2⟩ := (mem_meshPoints nk p).1 hp
    exact (C19_images q nk (by omega) angle p).2 ⟨h1, h2, hs⟩
  · rintro ⟨hp, h⟩
    refine ⟨hp, fun q hq hlt hi => h q hq ?_ hlt⟩
    obtain ⟨h1, h2⟩ := (mem_meshPoints nk p).1 hp
    exact ((C19_images q nk (by omega) angle p).1 hi).2.2

/-- C20: every orbit of the mesh has exactly one irreducible point, that is, the orbits of the
irreducible points cover the mesh without overlap. -/
theorem C20_one_per_orbit (nk : Nat) (angle : Angle) (k : P) (hk : OnMesh nk k) :
    ∃! p, p ∈ irreducibles nk angle ∧ k ∈ images p nk angle := by
  replace hk : k ∈ meshPoints nk := (mem_meshPoints nk k).2 hk
  have hnk : 0 < nk := by
    obtain ⟨h1, h2⟩ := (mem_meshPoints nk k).1 hk
    omega
  have heq := C19_equivalence nk angle
  have hm : ∀ p, OnMesh nk p ↔ p ∈ meshPoints nk := fun p => (mem_meshPoints nk p).symm
  simp only [hm] at heq
  have hmesh : ∀ p q, q ∈ images p nk angle → q ∈ meshPoints nk := by
    intro p q hq
    obtain ⟨h1, h2, _⟩ := (C19_images p nk (by omega) angle q).1 hq
    exact (mem_meshPoints nk q).2 ⟨h1, h2⟩
  -- existence: first element of the orbit
  have hex : ∃ p, p ∈ meshPoints nk ∧ k ∈ images p nk angle ∧
      ∀ q ∈ meshPoints nk, k ∈ images q nk angle → ¬ RowLt q p := by
    have hgen : ∀ l : List P, l.Pairwise RowLt → (∃ p ∈ l, k ∈ images p nk angle) →
        ∃ p ∈ l, k ∈ images p nk angle ∧ ∀ q ∈ l, k ∈ images q nk angle → ¬ RowLt q p := by
      intro l hl hp
      induction l with
      | nil => obtain ⟨p, hp, _⟩ := hp; cases hp
      | cons a l ih =>
        by_cases ha : k ∈ images a nk angle
        · refine ⟨a, List.mem_cons_self, ha, ?_⟩
          intro q hq _ hlt
          rcases List.mem_cons.1 hq with rfl | hq
          · exact RowLt.irrefl _ hlt
          · exact (List.rel_of_pairwise_cons hl hq).asymm hlt
        · obtain ⟨p, hp, hkp⟩ := hp
          rcases List.mem_cons.1 hp with rfl | hp
          · exact absurd hkp ha
          · obtain ⟨r, hr, hkr, hmin⟩ := ih hl.of_cons ⟨p, hp, hkp⟩
            refine ⟨r, List.mem_cons_of_mem _ hr, hkr, ?_⟩
            intro q hq hkq
            rcases List.mem_cons.1 hq with rfl | hq
            · exact absurd hkq ha
            · exact hmin q hq hkq
    exact hgen _ (pairwise_meshPoints nk) ⟨k, hk, heq.1 k hk⟩
  obtain ⟨p, hp, hkp, hmin⟩ := hex
  refine ⟨p, ⟨?_, hkp⟩, ?_⟩
  · unfold irreducibles
    rw [irr_fold nk angle (meshPoints nk) [] (by simp)]
    refine ⟨hp, fun q hq hlt hi => hmin q hq ?_ hlt⟩
    exact heq.2.2.1 q p k hi hkp
  · rintro r ⟨hr, hkr⟩
    by_contra hne
    unfold irreducibles at hr
    rw [irr_fold nk angle (meshPoints nk) [] (by simp)] at hr
    obtain ⟨hrm, hr⟩ := hr
    rcases RowLt.total hne with hlt | hlt
    · exact hmin r hrm hkr hlt
    · exact hr p hp hlt (heq.2.2.1 p k r hkp (heq.2.1 r hrm k hkr))

example : irreducibles 3 .a60 = {(0, 0), (0, 1), (1, 1)} := by decide
example : irreducibles 3 .a120 = {(0, 0), (0, 1), (1, 2)} := by decide

/-! ## C21 -/

variable {K : Type} [DecidableEq K]

/-- C21: a value that is present before is present, unchanged, afterwards. -/
theorem C21_preserves (nk : Nat) (angle : Angle) (data : P → Option K) (k : P) (v : K)
    (h : data k = some v) : complete nk angle data k = some v := by
  unfold complete completeWith
  split
  · exact h
  · refine (completeLoop_inv (meshPoints nk) (symMaps angle nk) data _ ?_ (symMaps angle nk)
      (fun g hg => hg) data ⟨fun _ _ h => h, fun _ _ h => Or.inl h⟩).keep k v h
    intro k hk
    simpa using hk

/-- C21: every value found afterwards was there before at an equivalent mesh point. -/
theorem C21_provenance (nk : Nat) (angle : Angle) (data : P → Option K) (k : P) (v : K)
    (h : complete nk angle data k = some v) :
    data k = some v ∨ ∃ j, OnMesh nk j ∧ data j = some v ∧ SymEquiv angle nk j k := by
  unfold complete completeWith at h
  split at h
  · exact Or.inl h
  · have hinv := completeLoop_inv (meshPoints nk) (symMaps angle nk) data
      ((meshPoints nk).filter fun k => (data k).isSome) (by intro k hk; simpa using hk)
      (symMaps angle nk)
      (fun g hg => hg) data ⟨fun _ _ h => h, fun _ _ h => Or.inl h⟩
    rcases hinv.prov k v h with h1 | ⟨j, hj, h1, g, hg, rfl⟩
    · exact Or.inl h1
    · right
      refine ⟨j, (mem_meshPoints nk j).1 hj, h1, ?_⟩
      obtain ⟨A, hA, he⟩ := symMaps_isometry angle nk g hg
      refine ⟨A, hA, ?_, ?_⟩
      · rw [he]; exact Int.ModEq.dvd (Int.mod_modEq _ _).symm
      · rw [he]; exact Int.ModEq.dvd (Int.mod_modEq _ _).symm

/-- C21: if the given values belong to a function with the full symmetry of the lattice and are
given at least on the irreducible points, then the function is recovered on the whole mesh. -/
theorem C21_recovers (nk : Nat) (angle : Angle) (F : P → K)
    (hF : ∀ k q, SymEquiv angle nk k q → F q = F k) (data : P → Option K)
    (hdata : ∀ k v, data k = some v → v = F k)
    (hirr : ∀ k ∈ irreducibles nk angle, (data k).isSome) (k : P) (hk : OnMesh nk k) :
    complete nk angle data k = some (F k) := by
  replace hk : k ∈ meshPoints nk := (mem_meshPoints nk k).2 hk
  have hsome : (complete nk angle data k).isSome := by
    unfold complete completeWith
    split
    · next hlen =>
      rw [List.length_filter_eq_length_iff] at hlen
      exact hlen k hk
    · refine completeLoop_total (meshPoints nk) (symMaps angle nk) data F ?_ hdata _ ?_
        (symMaps angle nk) (fun g hg => hg) data ⟨fun _ _ h => h, fun _ _ h => Or.inl h⟩ ?_ k hk
      · intro g hg j hj
        apply hF
        obtain ⟨A, hA, he⟩ := symMaps_isometry angle nk g hg
        refine ⟨A, hA, ?_, ?_⟩
        · rw [he]; exact Int.ModEq.dvd (Int.mod_modEq _ _).symm
        · rw [he]; exact Int.ModEq.dvd (Int.mod_modEq _ _).symm
      · intro k hk; simpa using hk
      · intro j hj
        obtain ⟨p, ⟨hp, hjp⟩, _⟩ := C20_one_per_orbit nk angle j ((mem_meshPoints nk j).1 hj)
        have hpm : p ∈ meshPoints nk := (mem_meshPoints nk p).2 ((C20_irreducibles nk angle p).1 hp).1
        rcases images_symMaps angle nk p j hjp with h1 | ⟨g, hg, h1⟩
        · left
          rw [h1, red_of_mem hpm]; exact hirr p hp
        · right
          exact ⟨g, hg, p, by simpa using ⟨hpm, hirr p hp⟩, h1.symm⟩
  obtain ⟨v, hv⟩ := Option.isSome_iff_exists.1 hsome
  rw [hv]
  congr 1
  rcases C21_provenance nk angle data k v hv with h1 | ⟨j, _, h1, hs⟩
  · exact hdata k v h1
  · rw [hF j k hs]; exact hdata j v h1

/-- Nontrivial data with a gap (mesh 3 × 3, values of the squared distance). -/
def exampleData : P → Option Int := fun k =>
  if k = (0, 0) then some 0 else if k = (0, 1) then some 1 else if k = (1, 1) then some 3 else none

example : (meshPoints 3).map (complete 3 .a60 exampleData) =
    [some 0, some 1, some 1, some 1, some 3, some 1, some 1, some 1, some 3] := by decide

/-! ### Cartesian form of the symmetry operations

`symmetries` works in Cartesian coordinates. With exact real arithmetic this is the integer map
used in the model. -/

/-- `elphmod/bravais.py` 16-43 (`rotate`, two-dimensional). -/
noncomputable def rotate (v : ℝ × ℝ) (φ : ℝ) : ℝ × ℝ :=
  (Real.cos φ * v.1 - Real.sin φ * v.2, Real.sin φ * v.1 + Real.cos φ * v.2)

/-- Angle in radians. -/
noncomputable def Angle.rad : Angle → ℝ
  | .a60 => Real.pi / 3
  | .a90 => Real.pi / 2
  | .a120 => 2 * Real.pi / 3

/-- `dangle` in radians (`elphmod/bravais.py` 614). -/
noncomputable def Angle.dangle : Angle → ℝ
  | .a60 => Real.pi / 3
  | .a90 => Real.pi / 2
  | .a120 => Real.pi / 3

/-- `elphmod/bravais.py` 577 and 282-316: second translation vector (the first is `(1, 0)`). -/
noncomputable def cartA2 (angle : Angle) : ℝ × ℝ := rotate (1, 0) (Real.pi - angle.rad)

/-- Scalar product. -/
noncomputable def dot2 (u v : ℝ × ℝ) : ℝ := u.1 * v.1 + u.2 * v.2

/-- `elphmod/bravais.py` 318-340 (`reciprocals`, two-dimensional). -/
noncomputable def recip2 (a1 a2 : ℝ × ℝ) : (ℝ × ℝ) × (ℝ × ℝ) :=
  let b1 := rotate a2 (-(Real.pi / 2))
  let b2 := rotate a1 (Real.pi / 2)
  ((b1.1 / dot2 a1 b1, b1.2 / dot2 a1 b1), (b2.1 / dot2 a2 b2, b2.2 / dot2 a2 b2))

/-- `elphmod/bravais.py` 583-600: image of a mesh point. Python's `round` and Mathlib's `round`
differ at half-integers only, which do not occur here. -/
noncomputable def cartImage (angle : Angle) (nk : Int) (reflect : Bool) (n : Nat) (k : P) : P :=
  let a1 : ℝ × ℝ := (1, 0)
  let a2 := cartA2 angle
  let b := recip2 a1 a2
  let K := rotate (k.1 * b.1.1 + k.2 * b.2.1, k.1 * b.1.2 + k.2 * b.2.2) (n * angle.dangle)
  let K := if reflect then (-K.1, K.2) else K
  (round (dot2 K a1) % nk, round (dot2 K a2) % nk)

theorem rotate_add (v : ℝ × ℝ) (φ ψ : ℝ) : rotate (rotate v φ) ψ = rotate v (φ + ψ) := by
  simp only [rotate, Real.cos_add, Real.sin_add, Prod.mk.injEq]
  constructor <;> ring

/-- Cartesian coordinates of a mesh point. -/
noncomputable def toCart (angle : Angle) (k : P) : ℝ × ℝ :=
  let b := recip2 (1, 0) (cartA2 angle)
  (k.1 * b.1.1 + k.2 * b.2.1, k.1 * b.1.2 + k.2 * b.2.2)

/-- Sine and cosine of the angle between the translation vectors. -/
noncomputable def sc : Angle → ℝ × ℝ
  | .a60 => (-(1 / 2), Real.sqrt 3 / 2)
  | .a90 => (0, 1)
  | .a120 => (1 / 2, Real.sqrt 3 / 2)

theorem cartA2_eq (angle : Angle) : cartA2 angle = sc angle := by
  cases angle
  · simp only [cartA2, rotate, Angle.rad, sc, Real.cos_pi_sub, Real.sin_pi_sub,
      Real.cos_pi_div_three, Real.sin_pi_div_three]
    ext <;> simp
  · simp only [cartA2, rotate, Angle.rad, sc, Real.cos_pi_sub, Real.sin_pi_sub,
      Real.cos_pi_div_two, Real.sin_pi_div_two]
    ext <;> simp
  · have e : Real.pi - 2 * Real.pi / 3 = Real.pi / 3 := by ring
    simp only [cartA2, rotate, Angle.rad, sc, e, Real.cos_pi_div_three, Real.sin_pi_div_three]
    ext <;> simp

theorem sqrt3_ne : Real.sqrt 3 ≠ 0 := by
  rw [Real.sqrt_ne_zero'] ; norm_num

theorem sqrt3_sq : Real.sqrt 3 * Real.sqrt 3 = 3 := Real.mul_self_sqrt (by norm_num)

theorem toCart_eq (angle : Angle) (k : P) :
    toCart angle k = ((k.1 : ℝ), ((k.2 : ℝ) - k.1 * (sc angle).1) / (sc angle).2) := by
  have h3 := sqrt3_ne
  simp only [toCart, cartA2_eq, recip2, rotate, dot2, Real.cos_neg, Real.sin_neg,
    Real.cos_pi_div_two, Real.sin_pi_div_two]
  cases angle <;> simp [sc] <;> field_simp <;> ring_nf

theorem toCart_rot (angle : Angle) (k : P) :
    rotate (toCart angle k) angle.dangle = toCart angle (rot angle k) := by
  have h3 := sqrt3_ne
  have hs := sqrt3_sq
  obtain ⟨x, y⟩ := k
  rw [toCart_eq, toCart_eq]
  cases angle
  · simp only [rotate, Angle.dangle, sc, rot, Real.cos_pi_div_three, Real.sin_pi_div_three,
      Prod.mk.injEq]
    push_cast
    constructor
    · field_simp; ring
    · field_simp; linear_combination (x : ℝ) * hs
  · simp [rotate, Angle.dangle, sc, rot]
  · simp only [rotate, Angle.dangle, sc, rot, Real.cos_pi_div_three, Real.sin_pi_div_three,
      Prod.mk.injEq]
    push_cast
    constructor
    · field_simp; ring
    · field_simp; linear_combination (x : ℝ) * hs

theorem toCart_rot_iter (angle : Angle) (n : Nat) (k : P) :
    rotate (toCart angle k) (n * angle.dangle) = toCart angle ((rot angle)^[n] k) := by
  induction n with
  | zero => simp [rotate]
  | succ n ih =>
    rw [Function.iterate_succ_apply', ← toCart_rot, ← ih, rotate_add]
    congr 1
    push_cast; ring

theorem toCart_refl (angle : Angle) (k : P) :
    (-(toCart angle k).1, (toCart angle k).2) = toCart angle (refl angle k) := by
  have h3 := sqrt3_ne
  obtain ⟨x, y⟩ := k
  rw [toCart_eq, toCart_eq]
  cases angle <;> simp [sc, refl] <;> field_simp <;> ring

theorem dot_toCart (angle : Angle) (k : P) :
    dot2 (toCart angle k) (1, 0) = k.1 ∧ dot2 (toCart angle k) (cartA2 angle) = k.2 := by
  have h3 := sqrt3_ne
  rw [toCart_eq, cartA2_eq]
  cases angle <;> simp [dot2, sc] <;> field_simp <;> ring

/-- C21 (fidelity of the model): the Cartesian arithmetic of `symmetries`, done with exact real
numbers, always arrives at integers, namely those of the integer maps used above. -/
theorem C21_cartesian (angle : Angle) (nk : Int) (reflect : Bool) (n : Nat) (k : P) :
    cartImage angle nk reflect n k = symMap angle nk reflect n k := by
  have h : rotate (toCart angle k) (n * angle.dangle) = toCart angle ((rot angle)^[n] k) :=
    toCart_rot_iter angle n k
  unfold cartImage
  simp only
  change (round (dot2 (if reflect then (-(rotate (toCart angle k) (n * angle.dangle)).1,
    (rotate (toCart angle k) (n * angle.dangle)).2) else
    rotate (toCart angle k) (n * angle.dangle)) (1, 0)) % nk, round (dot2 (if reflect then
    (-(rotate (toCart angle k) (n * angle.dangle)).1,
    (rotate (toCart angle k) (n * angle.dangle)).2) else
    rotate (toCart angle k) (n * angle.dangle)) (cartA2 angle)) % nk) = _
  rw [h]
  cases reflect
  · simp only [Bool.false_eq_true, if_false, symMap, red]
    obtain ⟨h1, h2⟩ := dot_toCart angle ((rot angle)^[n] k)
    rw [h1, h2, round_intCast, round_intCast]
  · simp only [if_true, symMap, red]
    rw [toCart_refl]
    obtain ⟨h1, h2⟩ := dot_toCart angle (refl angle ((rot angle)^[n] k))
    rw [h1, h2, round_intCast, round_intCast]

example := C21_cartesian .a60 12 true 5 (3, 4)

end Verif.Mesh
