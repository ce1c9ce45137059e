import Verif.Misc.Model
import Verif.MPI.Props
import Mathlib.Tactic.FieldSimp
import Mathlib.Tactic.Linarith
import Mathlib.Tactic.LinearCombination
import Mathlib.Algebra.Order.Field.Basic
import Mathlib.Algebra.Order.Ring.Rat
import Mathlib.Data.Rat.Cast.Order

/-!
# Model of `elphmod/dos.py`: `double_delta` (C69)
-/

namespace Verif.DOS

variable {K : Type} [Field K] [LinearOrder K]

/-- Corner of a triangle: mesh indices (not reduced to the mesh) and the values of `x`, `y`, `f`. -/
structure Corner (K : Type) where
  i : K
  j : K
  x : K
  y : K
  f : K

/-- `elphmod/dos.py` 234-243: triangles with the values at the corners. -/
def ddTriangles (N : Nat) (x y f : Nat → Nat → K) : List (Corner K × Corner K × Corner K) :=
  let corner := fun (i j : Nat) =>
    (⟨(i : K), (j : K), x (i % N) (j % N), y (i % N) (j % N), f (i % N) (j % N)⟩ : Corner K)
  (List.range N).flatMap fun i =>
    (List.range N).flatMap fun j =>
      (List.range 2).map fun k => (corner (i + k) (j + k), corner (i + 1) j, corner i (j + 1))

/-- `elphmod/dos.py` 251-264: intersection found in one triangle, as point and weight. -/
def hit (N : Nat) (z : K) (t : Corner K × Corner K × Corner K) : Option ((K × K) × K) :=
  let P := t.1
  let Q := t.2.1
  let R := t.2.2
  let w := P.x * Q.y - Q.x * P.y - P.x * R.y + R.x * P.y + Q.x * R.y - R.x * Q.y
  if w = 0 then none
  else
    let U := (z * Q.y - Q.x * z - z * R.y + R.x * z + Q.x * R.y - R.x * Q.y) / w
    let V := (P.x * z - z * P.y - P.x * R.y + R.x * P.y + z * R.y - R.x * z) / w
    let W := (P.x * Q.y - Q.x * P.y - P.x * z + z * P.y + Q.x * z - z * Q.y) / w
    if (0 ≤ U ∧ U ≤ 1) ∧ (0 ≤ V ∧ V ≤ 1) ∧ 0 ≤ W ∧ W ≤ 1 then
      some ((U * P.i + V * Q.i + W * R.i, U * P.j + V * Q.j + W * R.j),
        1 / (N : K) ^ 2 * (U * P.f + V * Q.f + W * R.f) / |w|)
    else none

/-- `elphmod/dos.py` 250-271: all intersections, gathered from all processes in rank order. -/
def ddHits (size N : Nat) (z : K) (x y f : Nat → Nat → K) : List ((K × K) × K) :=
  (List.range size).flatMap fun rank =>
    (Verif.MPI.deal size rank (ddTriangles N x y f)).filterMap (hit N z)

/-- `np.average` over the entries of `l` listed in `group`. -/
def average (l : List K) (group : List Nat) : K :=
  (group.map fun n => l.getD n 0).sum / (group.length : K)

/-- `elphmod/dos.py` 204-285 (`double_delta`): intersections closer than `eps` are merged. The dictionary
is represented as list of keys and values. -/
def doubleDelta (size N : Nat) (eps z : K) (x y f : Nat → Nat → K) : List ((K × K) × K) :=
  let hits := ddHits size N z x y f
  let points := fun n k => if k = 0 then (hits.map fun h => h.1.1).getD n 0 else (hits.map fun h => h.1.2).getD n 0
  (Verif.Misc.group points hits.length 2 eps).map fun g =>
    ((average (hits.map fun h => h.1.1) g, average (hits.map fun h => h.1.2) g),
      average (hits.map fun h => h.2) g)

variable [IsStrictOrderedRing K]

omit [IsStrictOrderedRing K] [LinearOrder K] in
theorem barycentric (A B C a b c z : K)
    (hw : A * b - B * a - A * c + C * a + B * c - C * b ≠ 0) (U V W : K) :
    (U + V + W = 1 ∧ U * A + V * B + W * C = z ∧ U * a + V * b + W * c = z) ↔
    (U = (z * b - B * z - z * c + C * z + B * c - C * b) / (A * b - B * a - A * c + C * a + B * c - C * b) ∧
      V = (A * z - z * a - A * c + C * a + z * c - C * z) / (A * b - B * a - A * c + C * a + B * c - C * b) ∧
      W = (A * b - B * a - A * z + z * a + B * z - z * b) / (A * b - B * a - A * c + C * a + B * c - C * b)) := by
  constructor
  · rintro ⟨h1, h2, h3⟩
    refine ⟨?_, ?_, ?_⟩ <;> rw [eq_div_iff hw]
    · linear_combination (B * c - C * b) * h1 - (c - b) * h2 - (B - C) * h3
    · linear_combination (C * a - A * c) * h1 - (a - c) * h2 - (C - A) * h3
    · linear_combination (A * b - B * a) * h1 - (b - a) * h2 - (A - B) * h3
  · rintro ⟨hU, hV, hW⟩
    rw [eq_div_iff hw] at hU hV hW
    refine ⟨?_, ?_, ?_⟩ <;> apply mul_right_cancel₀ hw
    · linear_combination hU + hV + hW
    · linear_combination A * hU + B * hV + C * hW
    · linear_combination a * hU + b * hV + c * hW

/-- C69. An intersection is reported for a triangle exactly if the Jacobian does not vanish and the triangle
contains a point where the linear interpolations of both functions have the requested value. The reported
position is this point, and the weight is the interpolation of `f` there over the modulus of the Jacobian
and the number of mesh points. -/
theorem C69_hit (N : Nat) (z : K) (P Q R : Corner K) (d : K × K) (u : K) :
    hit N z (P, Q, R) = some (d, u) ↔
      (Q.x - P.x) * (R.y - P.y) - (R.x - P.x) * (Q.y - P.y) ≠ 0 ∧
      ∃ U V W : K, (0 ≤ U ∧ 0 ≤ V ∧ 0 ≤ W ∧ U + V + W = 1) ∧
        U * P.x + V * Q.x + W * R.x = z ∧ U * P.y + V * Q.y + W * R.y = z ∧
        d = (U * P.i + V * Q.i + W * R.i, U * P.j + V * Q.j + W * R.j) ∧
        u = (U * P.f + V * Q.f + W * R.f) /
          ((N : K) ^ 2 * |(Q.x - P.x) * (R.y - P.y) - (R.x - P.x) * (Q.y - P.y)|) := by
  have e : (Q.x - P.x) * (R.y - P.y) - (R.x - P.x) * (Q.y - P.y) =
    P.x * Q.y - Q.x * P.y - P.x * R.y + R.x * P.y + Q.x * R.y - R.x * Q.y := by ring
  rw [e]
  unfold hit
  simp only
  by_cases hw : P.x * Q.y - Q.x * P.y - P.x * R.y + R.x * P.y + Q.x * R.y - R.x * Q.y = 0
  · simp [hw]
  rw [if_neg hw]
  have hb := barycentric P.x Q.x R.x P.y Q.y R.y z hw
  revert hb
  generalize (z * Q.y - Q.x * z - z * R.y + R.x * z + Q.x * R.y - R.x * Q.y) / _ = U
  generalize (P.x * z - z * P.y - P.x * R.y + R.x * P.y + z * R.y - R.x * z) / _ = V
  generalize (P.x * Q.y - Q.x * P.y - P.x * z + z * P.y + Q.x * z - z * Q.y) / _ = W
  generalize P.x * Q.y - Q.x * P.y - P.x * R.y + R.x * P.y + Q.x * R.y - R.x * Q.y = w at *
  intro hb
  have hb0 := (hb U V W).2 ⟨rfl, rfl, rfl⟩
  have hu : ∀ U V W : K, 1 / (N : K) ^ 2 * (U * P.f + V * Q.f + W * R.f) / |w| =
      (U * P.f + V * Q.f + W * R.f) / ((N : K) ^ 2 * |w|) := by
    intro U V W
    rw [one_div, inv_mul_eq_div, div_div]
  constructor
  · intro h
    refine ⟨hw, U, V, W, ?_⟩
    split at h
    · rename_i hr
      simp only [Option.some.injEq, Prod.mk.injEq] at h
      exact ⟨⟨hr.1.1, hr.2.1.1, hr.2.2.1, hb0.1⟩, hb0.2.1, hb0.2.2, h.1.symm, by rw [← h.2, hu]⟩
    · cases h
  · rintro ⟨_, U', V', W', ⟨h1, h2, h3, h4⟩, h5, h6, rfl, rfl⟩
    obtain ⟨rfl, rfl, rfl⟩ := (hb U' V' W').1 ⟨h4, h5, h6⟩
    rw [if_pos, hu]
    refine ⟨⟨h1, ?_⟩, ⟨h2, ?_⟩, h3, ?_⟩ <;> linarith

omit [IsStrictOrderedRing K] in
/-- C69 (processes). The intersections found do not depend on the number of processes, except for their
order. -/
theorem C69_processes (size : Nat) (hs : 0 < size) (N : Nat) (z : K) (x y f : Nat → Nat → K) :
    (ddHits size N z x y f).Perm ((ddTriangles N x y f).filterMap (hit N z)) := by
  unfold ddHits
  generalize ddTriangles N x y f = ts
  rw [← Multiset.coe_eq_coe]
  have h := (Verif.MPI.C03_sum (fun t => ((hit N z t).toList : Multiset ((K × K) × K))) size hs ts).1
  have e1 : ∀ l : List (Corner K × Corner K × Corner K),
      (l.map fun t => ((hit N z t).toList : Multiset ((K × K) × K))).sum =
        ((l.filterMap (hit N z) : List ((K × K) × K)) : Multiset ((K × K) × K)) := by
    intro l
    induction l with
    | nil => rfl
    | cons a l ih =>
      rw [List.map_cons, List.sum_cons, ih, List.filterMap_cons]
      cases hit N z a <;> simp
  simp only [e1] at h
  rw [← h]
  have e2 : ∀ n, ((((List.range n).flatMap fun rank =>
      (Verif.MPI.deal size rank ts).filterMap (hit N z)) : List ((K × K) × K)) : Multiset ((K × K) × K)) =
      ∑ rank ∈ Finset.range n, (((Verif.MPI.deal size rank ts).filterMap (hit N z) : List ((K × K) × K)) :
        Multiset ((K × K) × K)) := by
    intro n
    induction n with
    | zero => rfl
    | succ n ih =>
      rw [List.range_succ, List.flatMap_append, ← Multiset.coe_add, ih, Finset.sum_range_succ]
      simp
  exact e2 size

/-- Functions that vanish at `(0, 0)` only (first one) and have distinct values at neighboring neighbors
of the origin (second one). -/
def exX (i j : Nat) : ℚ := if i = 0 ∧ j = 0 then 0 else 1
def exY (i j : Nat) : ℚ :=
  if i = 0 ∧ j = 0 then 0
  else if (i, j) = (1, 0) ∨ (i, j) = (2, 1) ∨ (i, j) = (0, 2) then 1 else 2

/-- C69 is violated with respect to the choice of the origin: intersections on the boundary of the mesh are
not recognized as periodic images of each other. The same pair of functions with the only intersection at
mesh point `(1, 1)` and at mesh point `(0, 0)`: the latter is counted four times. -/
theorem C69_origin_violated :
    ((doubleDelta 1 3 (1/10000000) (0 : ℚ) (fun i j => exX ((i + 2) % 3) ((j + 2) % 3))
      (fun i j => exY ((i + 2) % 3) ((j + 2) % 3)) (fun _ _ => 1)).map (·.2)).sum = 1/9 ∧
    ((doubleDelta 1 3 (1/10000000) (0 : ℚ) exX exY (fun _ _ => 1)).map (·.2)).sum = 4/9 := by
  decide +kernel

/-- A triangle with an intersection in its interior. -/
example : hit 1 (0 : ℚ) (⟨0, 0, -1, -1, 1⟩, ⟨1, 0, 2, -1, 1⟩, ⟨0, 1, -1, 2, 1⟩) =
    some ((1/3, 1/3), 1/9) := by
  decide +kernel

end Verif.DOS
