import Verif.Bravais.Props

/-!
# Labels of special points in `path`, `elphmod/bravais.py` 1529-1625

`primitives` and `reciprocals` are those of `Verif.Bravais.Model`. Bravais lattices without own labels (only `G`) are omitted.
-/

namespace Verif.Bravais

/-- `elphmod/bravais.py` 1529-1625: dictionary of labels for a Bravais-lattice index. -/
noncomputable def specialPoints (ibrav : Int) : List (String × R3) :=
  (if ibrav = 1 then [("M", ![0, 1 / 2, 1 / 2]), ("R", ![1 / 2, 1 / 2, 1 / 2]), ("X", ![0, 0, 1 / 2])]
  else if ibrav = 2 then [("X", ![0, 1 / 2, 1 / 2]), ("L", ![1 / 2, 1 / 2, 1 / 2]), ("W", ![1 / 4, 3 / 4, 1 / 2]),
    ("U", ![1 / 4, 5 / 8, 5 / 8]), ("K", ![3 / 8, 3 / 4, 3 / 8])]
  else if ibrav = 3 then [("H", ![1 / 2, 1 / 2, 1 / 2]), ("P", ![3 / 4, 1 / 4, -(1 / 4)]), ("N", ![1 / 2, 1 / 2, 0])]
  else if ibrav = -3 then [("H", ![1 / 2, 1 / 2, -(1 / 2)]), ("P", ![1 / 4, 1 / 4, 1 / 4]), ("N", ![1 / 2, 0, 0])]
  else if ibrav = 4 then [("A", ![0, 0, 1 / 2]), ("M", ![0, 1 / 2, 0]), ("L", ![0, 1 / 2, 1 / 2]),
    ("K", ![1 / 3, 1 / 3, 0]), ("H", ![1 / 3, 1 / 3, 1 / 2])]
  else if ibrav = 6 then [("X", ![1 / 2, 0, 0]), ("M", ![1 / 2, 1 / 2, 0]), ("Z", ![0, 0, 1 / 2]),
    ("R", ![1 / 2, 0, 1 / 2]), ("A", ![1 / 2, 1 / 2, 1 / 2])]
  else if ibrav = 7 then [("X", ![1 / 4, 1 / 4, -(1 / 4)]), ("M", ![0, 1 / 2, -(1 / 2)]), ("Z", ![1 / 4, 1 / 4, 1 / 4]),
    ("R", ![1 / 2, 1 / 2, 0]), ("A", ![1 / 4, 3 / 4, -(1 / 4)])]
  else if ibrav = 8 then [("X", ![1 / 2, 0, 0]), ("Y", ![0, 1 / 2, 0]), ("Z", ![0, 0, 1 / 2]), ("S", ![1 / 2, 1 / 2, 0]),
    ("T", ![0, 1 / 2, 1 / 2]), ("U", ![1 / 2, 0, 1 / 2]), ("R", ![1 / 2, 1 / 2, 1 / 2])]
  else if ibrav = 9 then [("Y", ![1 / 2, -(1 / 2), 0]), ("y", ![1 / 2, 1 / 2, 0]), ("Z", ![0, 0, 1 / 2]),
    ("T", ![1 / 2, -(1 / 2), 1 / 2]), ("t", ![1 / 2, 1 / 2, 1 / 2]), ("S", ![1 / 2, 0, 0]), ("R", ![1 / 2, 0, 1 / 2])]
  else if ibrav = -9 then [("Y", ![1 / 2, 1 / 2, 0]), ("y", ![-(1 / 2), 1 / 2, 0]), ("Z", ![0, 0, 1 / 2]),
    ("T", ![1 / 2, 1 / 2, 1 / 2]), ("t", ![-(1 / 2), 1 / 2, 1 / 2]), ("S", ![0, 1 / 2, 0]), ("R", ![0, 1 / 2, 1 / 2])]
  else if ibrav = 12 ∨ ibrav = -12 then [("B", ![-(1 / 2), 0, 0]), ("Y", ![0, 1 / 2, 0]), ("Z", ![0, 0, 1 / 2]),
    ("D", ![-(1 / 2), 1 / 2, 0]), ("C", ![0, 1 / 2, 1 / 2]), ("A", ![-(1 / 2), 0, 1 / 2]), ("E", ![-(1 / 2), 1 / 2, 1 / 2])]
  else []) ++ [("G", ![0, 0, 0])]

/-- `elphmod/bravais.py` 1622-1623: the point a label stands for. -/
noncomputable def labelled (ibrav : Int) (s : String) : Option R3 := (specialPoints ibrav).lookup s

/-- `elphmod/bravais.py` 1626-1632: Cartesian coordinates of a point for a lattice defined by `ibrav` and `celldm`. -/
noncomputable def cartesian (ibrav : Int) (cd : Fin 6 → ℝ) (p : R3) : Option R3 :=
  (latgen ibrav cd).map fun a =>
    let b := reciprocals3 (a 0) (a 1) (a 2)
    crystalToCartesian b.1 b.2.1 b.2.2 p

/-! ### Specification -/

/-- The point `k` is on the boundary of the first Brillouin zone of the lattice spanned by `b1`, `b2`, `b3`. -/
def OnBoundary (b1 b2 b3 k : R3) : Prop :=
  (∀ m : Fin 3 → ℤ, dot3 k k ≤ dot3 (k - crystalToCartesian b1 b2 b3 fun i => m i) (k - crystalToCartesian b1 b2 b3 fun i => m i)) ∧
  ∃ m : Fin 3 → ℤ, m ≠ 0 ∧
    dot3 k k = dot3 (k - crystalToCartesian b1 b2 b3 fun i => m i) (k - crystalToCartesian b1 b2 b3 fun i => m i)

theorem int_sq (z : ℤ) : 0 ≤ (z : ℝ) ^ 2 - z ∧ 0 ≤ (z : ℝ) ^ 2 + z := by
  constructor
  · have : (z : ℤ) ≤ z ^ 2 := Int.le_self_sq z
    have : ((z : ℤ) : ℝ) ≤ ((z ^ 2 : ℤ) : ℝ) := by exact_mod_cast this
    push_cast at this
    linarith
  · have : (-z : ℤ) ≤ (-z) ^ 2 := Int.le_self_sq (-z)
    have : ((-z : ℤ) : ℝ) ≤ (((-z) ^ 2 : ℤ) : ℝ) := by exact_mod_cast this
    push_cast at this
    linarith

/-- Orthorhombic lattices. -/
theorem boundary_ortho (α β γ x y z : ℝ) (hx : x = 0 ∨ x = 1 / 2) (hy : y = 0 ∨ y = 1 / 2) (hz : z = 0 ∨ z = 1 / 2)
    (hne : x ≠ 0 ∨ y ≠ 0 ∨ z ≠ 0) :
    OnBoundary ![α, 0, 0] ![0, β, 0] ![0, 0, γ] (crystalToCartesian ![α, 0, 0] ![0, β, 0] ![0, 0, γ] ![x, y, z]) := by
  have key : ∀ (t : ℝ), (t = 0 ∨ t = 1 / 2) → ∀ n : ℤ, 0 ≤ (n : ℝ) ^ 2 - 2 * t * n := by
    intro t ht n
    rcases ht with rfl | rfl
    · nlinarith [sq_nonneg (n : ℝ)]
    · have := (int_sq n).1
      linarith
  have key2 : ∀ (t : ℝ), (t = 0 ∨ t = 1 / 2) → t ^ 2 = (t - ((if t = 0 then 0 else 1 : ℤ) : ℝ)) ^ 2 := by
    intro t ht
    rcases ht with rfl | rfl <;> norm_num
  constructor
  · intro m
    have h1 := mul_nonneg (sq_nonneg α) (key x hx (m 0))
    have h2 := mul_nonneg (sq_nonneg β) (key y hy (m 1))
    have h3 := mul_nonneg (sq_nonneg γ) (key z hz (m 2))
    simp [dot3, crystalToCartesian]
    nlinarith
  · classical
    refine ⟨![if x = 0 then 0 else 1, if y = 0 then 0 else 1, if z = 0 then 0 else 1], ?_, ?_⟩
    · intro h
      have h0 := congrFun h 0
      have h1 := congrFun h 1
      have h2 := congrFun h 2
      simp at h0 h1 h2
      tauto
    · have h1 := key2 x hx
      have h2 := key2 y hy
      have h3 := key2 z hz
      simp only [dot3, crystalToCartesian, Pi.sub_apply, Matrix.cons_val_zero, Matrix.cons_val_one, Matrix.cons_val]
      linear_combination α ^ 2 * h1 + β ^ 2 * h2 + γ ^ 2 * h3

/-- Hexagonal lattices (`s` is the inverse of the square root of three). -/
theorem boundary_hex (α γ s : ℝ) (hs : s ^ 2 = 1 / 3) (x y z : ℝ) (hz : z = 0 ∨ z = 1 / 2)
    (hxy : x = 0 ∧ y = 0 ∧ z = 1 / 2 ∨ x = 0 ∧ y = 1 / 2 ∨ x = 1 / 3 ∧ y = 1 / 3) :
    OnBoundary ![α, s * α, 0] ![0, 2 * s * α, 0] ![0, 0, γ]
      (crystalToCartesian ![α, s * α, 0] ![0, 2 * s * α, 0] ![0, 0, γ] ![x, y, z]) := by
  have key : ∀ n : ℤ, 0 ≤ (n : ℝ) ^ 2 - 2 * z * n := by
    intro n
    rcases hz with rfl | rfl
    · nlinarith [sq_nonneg (n : ℝ)]
    · have := (int_sq n).1
      linarith
  have key2 : ∀ m n : ℤ, 0 ≤ (m : ℝ) ^ 2 + m * n + n ^ 2 - 2 * x * m - 2 * y * n - x * n - y * m := by
    intro m n
    have h1 := int_sq m
    have h2 := int_sq n
    have h3 := int_sq (m + n)
    push_cast at h3
    rcases hxy with ⟨rfl, rfl, -⟩ | ⟨rfl, rfl⟩ | ⟨rfl, rfl⟩ <;> nlinarith
  constructor
  · intro m
    have h1 := mul_nonneg (sq_nonneg α) (key2 (m 0) (m 1))
    have h2 := mul_nonneg (sq_nonneg γ) (key (m 2))
    simp only [dot3, crystalToCartesian, Pi.sub_apply, Matrix.cons_val_zero, Matrix.cons_val_one, Matrix.cons_val]
    have e : ∀ p q r : ℝ, (p * α + q * 0 + r * 0) * (p * α + q * 0 + r * 0) +
        (p * (s * α) + q * (2 * s * α) + r * 0) * (p * (s * α) + q * (2 * s * α) + r * 0) +
        (p * 0 + q * 0 + r * γ) * (p * 0 + q * 0 + r * γ) = 4 / 3 * α ^ 2 * (p ^ 2 + p * q + q ^ 2) + γ ^ 2 * r ^ 2 := by
      intro p q r
      linear_combination (α ^ 2 * (p + 2 * q) ^ 2) * hs
    have e' := e (x - m 0) (y - m 1) (z - m 2)
    have e0 := e x y z
    nlinarith
  · rcases hxy with ⟨rfl, rfl, rfl⟩ | ⟨rfl, rfl⟩ | ⟨rfl, rfl⟩
    · refine ⟨![0, 0, 1], fun h => by simpa using congrFun h 2, ?_⟩
      simp [dot3, crystalToCartesian]
      ring
    · refine ⟨![0, 1, 0], fun h => by simpa using congrFun h 1, ?_⟩
      simp [dot3, crystalToCartesian]
      ring
    · refine ⟨![1, 0, 0], fun h => by simpa using congrFun h 0, ?_⟩
      simp [dot3, crystalToCartesian]
      linear_combination α ^ 2 * hs

/-- Face-centred cubic lattices. -/
theorem boundary_fcc (α : ℝ) (p : String × R3) (hp : p ∈ specialPoints 2) (hG : p.1 ≠ "G") :
    OnBoundary ![-α, -α, α] ![α, α, α] ![-α, α, -α] (crystalToCartesian ![-α, -α, α] ![α, α, α] ![-α, α, -α] p.2) := by
  have key : ∀ (u v w : ℝ), (∀ m n l : ℤ, 0 ≤ ((-m + n - l : ℤ) : ℝ) ^ 2 + ((-m + n + l : ℤ) : ℝ) ^ 2 + ((m + n - l : ℤ) : ℝ) ^ 2 -
      2 * ((-u + v - w) * (-m + n - l : ℤ) + (-u + v + w) * (-m + n + l : ℤ) + (u + v - w) * (m + n - l : ℤ))) →
      ∀ m : Fin 3 → ℤ, dot3 (crystalToCartesian ![-α, -α, α] ![α, α, α] ![-α, α, -α] ![u, v, w])
        (crystalToCartesian ![-α, -α, α] ![α, α, α] ![-α, α, -α] ![u, v, w]) ≤
        dot3 (crystalToCartesian ![-α, -α, α] ![α, α, α] ![-α, α, -α] ![u, v, w] -
          crystalToCartesian ![-α, -α, α] ![α, α, α] ![-α, α, -α] fun i => m i)
        (crystalToCartesian ![-α, -α, α] ![α, α, α] ![-α, α, -α] ![u, v, w] -
          crystalToCartesian ![-α, -α, α] ![α, α, α] ![-α, α, -α] fun i => m i) := by
    intro u v w h m
    have := mul_nonneg (sq_nonneg α) (h (m 0) (m 1) (m 2))
    push_cast at this
    simp only [dot3, crystalToCartesian, Pi.sub_apply, Matrix.cons_val_zero, Matrix.cons_val_one, Matrix.cons_val]
    linarith
  have par : ∀ m n l : ℤ, ∃ i j k e : ℤ, (e = 0 ∨ e = 1) ∧ -m + n - l = 2 * i + e ∧ -m + n + l = 2 * j + e ∧
      m + n - l = 2 * k + e := by
    intro m n l
    refine ⟨(-m + n - l) / 2, (-m + n + l) / 2, (m + n - l) / 2, (m + n + l) % 2, by omega, by omega, by omega, by omega⟩
  simp [specialPoints] at hp
  rcases hp with rfl | rfl | rfl | rfl | rfl | rfl <;> simp at hG <;> simp only
  all_goals
    constructor
    · refine key _ _ _ fun m n l => ?_
      obtain ⟨i, j, k, e, he, h1, h2, h3⟩ := par m n l
      rw [h1, h2, h3]
      have f1 := int_sq i
      have f2 := int_sq j
      have f3 := int_sq k
      rcases he with rfl | rfl <;> push_cast <;> nlinarith [sq_nonneg (i : ℝ), sq_nonneg (j : ℝ), sq_nonneg (k : ℝ)]
  · refine ⟨![0, 1, 1], fun h => by simpa using congrFun h 1, ?_⟩
    simp [dot3, crystalToCartesian]
    ring
  · refine ⟨![1, 1, 1], fun h => by simpa using congrFun h 1, ?_⟩
    simp [dot3, crystalToCartesian]
    ring
  · refine ⟨![0, 1, 1], fun h => by simpa using congrFun h 1, ?_⟩
    simp [dot3, crystalToCartesian]
    ring
  · refine ⟨![0, 1, 1], fun h => by simpa using congrFun h 1, ?_⟩
    simp [dot3, crystalToCartesian]
    ring
  · refine ⟨![1, 1, 1], fun h => by simpa using congrFun h 1, ?_⟩
    simp [dot3, crystalToCartesian]
    ring

/-- Body-centred cubic lattices, in Cartesian coordinates: sums of integers that are even in total. -/
theorem zone_bcc (κ : R3) (hκ : κ = ![0, 0, 1] ∨ κ = ![1 / 2, 1 / 2, 1 / 2] ∨ κ = ![0, 1 / 2, 1 / 2]) (h k l : ℤ)
    (he : (h + k + l) % 2 = 0) :
    0 ≤ (h : ℝ) ^ 2 + (k : ℝ) ^ 2 + (l : ℝ) ^ 2 - 2 * (κ 0 * h + κ 1 * k + κ 2 * l) := by
  have f1 := int_sq h
  have f2 := int_sq k
  have f3 := int_sq l
  rcases hκ with rfl | rfl | rfl
  · have : (1 : ℤ) ≤ h ^ 2 + k ^ 2 + (l - 1) ^ 2 := by
      by_contra hn
      have h1 : h = 0 := by nlinarith [sq_nonneg h, sq_nonneg k, sq_nonneg (l - 1)]
      have h2 : k = 0 := by nlinarith [sq_nonneg h, sq_nonneg k, sq_nonneg (l - 1)]
      have h3 : l - 1 = 0 := by nlinarith [sq_nonneg h, sq_nonneg k, sq_nonneg (l - 1)]
      omega
    have : (1 : ℝ) ≤ h ^ 2 + k ^ 2 + (l - 1) ^ 2 := by exact_mod_cast this
    simp
    nlinarith
  · simp
    nlinarith
  · simp
    nlinarith [sq_nonneg (h : ℝ)]

theorem boundary_bcc (α : ℝ) (p : String × R3) (hp : p ∈ specialPoints 3) (hG : p.1 ≠ "G") :
    OnBoundary ![α, 0, α] ![-α, α, 0] ![0, -α, α] (crystalToCartesian ![α, 0, α] ![-α, α, 0] ![0, -α, α] p.2) := by
  have key : ∀ (u v w : ℝ), (![u - v, v - w, u + w] = (![0, 0, 1] : R3) ∨ ![u - v, v - w, u + w] = (![1 / 2, 1 / 2, 1 / 2] : R3) ∨
      ![u - v, v - w, u + w] = (![0, 1 / 2, 1 / 2] : R3)) → ∀ m : Fin 3 → ℤ,
      dot3 (crystalToCartesian ![α, 0, α] ![-α, α, 0] ![0, -α, α] ![u, v, w])
        (crystalToCartesian ![α, 0, α] ![-α, α, 0] ![0, -α, α] ![u, v, w]) ≤
      dot3 (crystalToCartesian ![α, 0, α] ![-α, α, 0] ![0, -α, α] ![u, v, w] -
          crystalToCartesian ![α, 0, α] ![-α, α, 0] ![0, -α, α] fun i => m i)
        (crystalToCartesian ![α, 0, α] ![-α, α, 0] ![0, -α, α] ![u, v, w] -
          crystalToCartesian ![α, 0, α] ![-α, α, 0] ![0, -α, α] fun i => m i) := by
    intro u v w h m
    have := mul_nonneg (sq_nonneg α) (zone_bcc _ h (m 0 - m 1) (m 1 - m 2) (m 0 + m 2) (by omega))
    push_cast at this
    simp only [dot3, crystalToCartesian, Pi.sub_apply, Matrix.cons_val_zero, Matrix.cons_val_one, Matrix.cons_val] at this ⊢
    linarith
  simp [specialPoints] at hp
  rcases hp with rfl | rfl | rfl | rfl <;> simp at hG <;> simp only
  · exact ⟨key _ _ _ (Or.inl (by norm_num)), ![1, 1, 1], fun h => by simpa using congrFun h 1, by
      simp [dot3, crystalToCartesian]; ring⟩
  · exact ⟨key _ _ _ (Or.inr (Or.inl (by norm_num))), ![1, 0, 0], fun h => by simpa using congrFun h 0, by
      simp [dot3, crystalToCartesian]; ring⟩
  · exact ⟨key _ _ _ (Or.inr (Or.inr (by norm_num))), ![1, 1, 0], fun h => by simpa using congrFun h 1, by
      simp [dot3, crystalToCartesian]; ring⟩

theorem boundary_bcc' (α : ℝ) (p : String × R3) (hp : p ∈ specialPoints (-3)) (hG : p.1 ≠ "G") :
    OnBoundary ![0, α, α] ![α, 0, α] ![α, α, 0] (crystalToCartesian ![0, α, α] ![α, 0, α] ![α, α, 0] p.2) := by
  have key : ∀ (u v w : ℝ), (![v + w, u + w, u + v] = (![0, 0, 1] : R3) ∨ ![v + w, u + w, u + v] = (![1 / 2, 1 / 2, 1 / 2] : R3) ∨
      ![v + w, u + w, u + v] = (![0, 1 / 2, 1 / 2] : R3)) → ∀ m : Fin 3 → ℤ,
      dot3 (crystalToCartesian ![0, α, α] ![α, 0, α] ![α, α, 0] ![u, v, w])
        (crystalToCartesian ![0, α, α] ![α, 0, α] ![α, α, 0] ![u, v, w]) ≤
      dot3 (crystalToCartesian ![0, α, α] ![α, 0, α] ![α, α, 0] ![u, v, w] -
          crystalToCartesian ![0, α, α] ![α, 0, α] ![α, α, 0] fun i => m i)
        (crystalToCartesian ![0, α, α] ![α, 0, α] ![α, α, 0] ![u, v, w] -
          crystalToCartesian ![0, α, α] ![α, 0, α] ![α, α, 0] fun i => m i) := by
    intro u v w h m
    have := mul_nonneg (sq_nonneg α) (zone_bcc _ h (m 1 + m 2) (m 0 + m 2) (m 0 + m 1) (by omega))
    push_cast at this
    simp only [dot3, crystalToCartesian, Pi.sub_apply, Matrix.cons_val_zero, Matrix.cons_val_one, Matrix.cons_val] at this ⊢
    linarith
  simp [specialPoints] at hp
  rcases hp with rfl | rfl | rfl | rfl <;> simp at hG <;> simp only
  · exact ⟨key _ _ _ (Or.inl (by norm_num)), ![1, 1, -1], fun h => by simpa using congrFun h 1, by
      simp [dot3, crystalToCartesian]; ring⟩
  · exact ⟨key _ _ _ (Or.inr (Or.inl (by norm_num))), ![1, 0, 0], fun h => by simpa using congrFun h 0, by
      simp [dot3, crystalToCartesian]; ring⟩
  · exact ⟨key _ _ _ (Or.inr (Or.inr (by norm_num))), ![1, 0, 0], fun h => by simpa using congrFun h 0, by
      simp [dot3, crystalToCartesian]; ring⟩

/-- Reciprocal lattice vectors of a Bravais lattice. -/
noncomputable def recip (ibrav : Int) (cd : Fin 6 → ℝ) : Option (R3 × R3 × R3) :=
  (latgen ibrav cd).map fun a => reciprocals3 (a 0) (a 1) (a 2)

theorem recip_ortho (cd : Fin 6 → ℝ) (h0 : cd 0 ≠ 0) (h1 : cd 1 ≠ 0) (h2 : cd 2 ≠ 0) :
    recip 1 cd = some (![1 / cd 0, 0, 0], ![0, 1 / cd 0, 0], ![0, 0, 1 / cd 0]) ∧
    recip 6 cd = some (![1 / cd 0, 0, 0], ![0, 1 / cd 0, 0], ![0, 0, 1 / (cd 0 * cd 2)]) ∧
    recip 8 cd = some (![1 / cd 0, 0, 0], ![0, 1 / (cd 0 * cd 1), 0], ![0, 0, 1 / (cd 0 * cd 2)]) := by
  refine ⟨?_, ?_, ?_⟩ <;>
  · simp only [recip, latgen, reduceIte, Int.reduceEq, Int.reduceNeg, Option.map_some, Option.some.injEq]
    refine Prod.ext ?_ (Prod.ext ?_ ?_) <;>
    · ext i
      fin_cases i <;> simp [reciprocals3, cross, dot3] <;> field_simp

theorem recip_fcc (cd : Fin 6 → ℝ) (h0 : cd 0 ≠ 0) :
    recip 2 cd = some (![-(1 / cd 0), -(1 / cd 0), 1 / cd 0], ![1 / cd 0, 1 / cd 0, 1 / cd 0],
      ![-(1 / cd 0), 1 / cd 0, -(1 / cd 0)]) ∧
    recip 3 cd = some (![1 / cd 0, 0, 1 / cd 0], ![-(1 / cd 0), 1 / cd 0, 0], ![0, -(1 / cd 0), 1 / cd 0]) ∧
    recip (-3) cd = some (![0, 1 / cd 0, 1 / cd 0], ![1 / cd 0, 0, 1 / cd 0], ![1 / cd 0, 1 / cd 0, 0]) := by
  refine ⟨?_, ?_, ?_⟩ <;>
  · simp only [recip, latgen, reduceIte, Int.reduceEq, Int.reduceNeg, Option.map_some, Option.some.injEq]
    refine Prod.ext ?_ (Prod.ext ?_ ?_) <;>
    · ext i
      fin_cases i <;> simp [reciprocals3, cross, dot3] <;> field_simp <;> norm_num

theorem recip_hex (cd : Fin 6 → ℝ) (h0 : cd 0 ≠ 0) (h2 : cd 2 ≠ 0) :
    recip 4 cd = some (![1 / cd 0, 1 / √3 * (1 / cd 0), 0], ![0, 2 * (1 / √3) * (1 / cd 0), 0], ![0, 0, 1 / (cd 0 * cd 2)]) := by
  have h3 : √3 ≠ 0 := by positivity
  simp only [recip, latgen, reduceIte, Int.reduceEq, Int.reduceNeg, Option.map_some, Option.some.injEq]
  refine Prod.ext ?_ (Prod.ext ?_ ?_) <;>
  · ext i
    fin_cases i <;> simp [reciprocals3, cross, dot3] <;> field_simp <;> norm_num

/-- C104: for simple, face-centred and body-centred cubic, hexagonal, tetragonal and orthorhombic lattices and all lattice
constants, all labels except for Gamma denote points on the boundary of the first Brillouin zone. -/
theorem C104_boundary (ibrav : Int) (hi : ibrav ∈ ([1, 2, 3, -3, 4, 6, 8] : List Int)) (cd : Fin 6 → ℝ) (h0 : cd 0 ≠ 0)
    (h1 : cd 1 ≠ 0) (h2 : cd 2 ≠ 0) (s : String) (p : R3) (hs : labelled ibrav s = some p) (hG : s ≠ "G") :
    ∃ b1 b2 b3 k, recip ibrav cd = some (b1, b2, b3) ∧ cartesian ibrav cd p = some k ∧ OnBoundary b1 b2 b3 k := by
  have hm : (s, p) ∈ specialPoints ibrav := by
    unfold labelled at hs
    rw [List.lookup_eq_some_iff] at hs
    obtain ⟨l1, l2, h, -⟩ := hs
    rw [h]
    simp
  have hc : ∀ b1 b2 b3, recip ibrav cd = some (b1, b2, b3) → OnBoundary b1 b2 b3 (crystalToCartesian b1 b2 b3 p) →
      ∃ b1 b2 b3 k, recip ibrav cd = some (b1, b2, b3) ∧ cartesian ibrav cd p = some k ∧ OnBoundary b1 b2 b3 k := by
    intro b1 b2 b3 hr hb
    refine ⟨b1, b2, b3, crystalToCartesian b1 b2 b3 p, hr, ?_, hb⟩
    have : cartesian ibrav cd p = (recip ibrav cd).map fun b => crystalToCartesian b.1 b.2.1 b.2.2 p := by
      simp only [cartesian, recip, Option.map_map]
      rfl
    rw [this, hr]
    rfl
  obtain ⟨r1, r6, r8⟩ := recip_ortho cd h0 h1 h2
  obtain ⟨r2, r3, r3'⟩ := recip_fcc cd h0
  have r4 := recip_hex cd h0 h2
  simp only [List.mem_cons, List.not_mem_nil, or_false] at hi
  rcases hi with rfl | rfl | rfl | rfl | rfl | rfl | rfl
  · refine hc _ _ _ r1 ?_
    simp [specialPoints] at hm
    rcases hm with ⟨rfl, rfl⟩ | ⟨rfl, rfl⟩ | ⟨rfl, rfl⟩ | ⟨rfl, rfl⟩ <;> simp at hG <;>
      exact boundary_ortho _ _ _ _ _ _ (by norm_num) (by norm_num) (by norm_num) (by norm_num)
  · exact hc _ _ _ r2 (boundary_fcc _ _ hm hG)
  · exact hc _ _ _ r3 (boundary_bcc _ _ hm hG)
  · exact hc _ _ _ r3' (boundary_bcc' _ _ hm hG)
  · refine hc _ _ _ r4 ?_
    have h3 : (1 / √3 : ℝ) ^ 2 = 1 / 3 := by rw [div_pow, one_pow, Real.sq_sqrt (by norm_num)]
    simp [specialPoints] at hm
    rcases hm with ⟨rfl, rfl⟩ | ⟨rfl, rfl⟩ | ⟨rfl, rfl⟩ | ⟨rfl, rfl⟩ | ⟨rfl, rfl⟩ | ⟨rfl, rfl⟩ <;> simp at hG <;>
      exact boundary_hex _ _ _ h3 _ _ _ (by norm_num) (by norm_num)
  · refine hc _ _ _ r6 ?_
    simp [specialPoints] at hm
    rcases hm with ⟨rfl, rfl⟩ | ⟨rfl, rfl⟩ | ⟨rfl, rfl⟩ | ⟨rfl, rfl⟩ | ⟨rfl, rfl⟩ | ⟨rfl, rfl⟩ <;> simp at hG <;>
      exact boundary_ortho _ _ _ _ _ _ (by norm_num) (by norm_num) (by norm_num) (by norm_num)
  · refine hc _ _ _ r8 ?_
    simp [specialPoints] at hm
    rcases hm with ⟨rfl, rfl⟩ | ⟨rfl, rfl⟩ | ⟨rfl, rfl⟩ | ⟨rfl, rfl⟩ | ⟨rfl, rfl⟩ | ⟨rfl, rfl⟩ | ⟨rfl, rfl⟩ | ⟨rfl, rfl⟩ <;>
      simp at hG <;>
      exact boundary_ortho _ _ _ _ _ _ (by norm_num) (by norm_num) (by norm_num) (by norm_num)

theorem cartesian_eq (ibrav : Int) (cd : Fin 6 → ℝ) (p : R3) :
    cartesian ibrav cd p = (recip ibrav cd).map fun b => crystalToCartesian b.1 b.2.1 b.2.2 p := by
  simp only [cartesian, recip, Option.map_map]
  rfl

theorem recip_other (cd : Fin 6 → ℝ) (h0 : cd 0 ≠ 0) (h1 : cd 1 ≠ 0) (h2 : cd 2 ≠ 0) :
    recip 7 cd = some (![1 / cd 0, -(1 / cd 0), 0], ![0, 1 / cd 0, 1 / (cd 0 * cd 2)],
      ![-(1 / cd 0), 0, 1 / (cd 0 * cd 2)]) ∧
    recip 9 cd = some (![1 / cd 0, 1 / (cd 0 * cd 1), 0], ![-(1 / cd 0), 1 / (cd 0 * cd 1), 0], ![0, 0, 1 / (cd 0 * cd 2)]) ∧
    recip (-9) cd = some (![1 / cd 0, -(1 / (cd 0 * cd 1)), 0], ![1 / cd 0, 1 / (cd 0 * cd 1), 0],
      ![0, 0, 1 / (cd 0 * cd 2)]) := by
  refine ⟨?_, ?_, ?_⟩ <;>
  · simp only [recip, latgen, reduceIte, Int.reduceEq, Int.reduceNeg, Option.map_some, Option.some.injEq]
    refine Prod.ext ?_ (Prod.ext ?_ ?_) <;>
    · ext i
      fin_cases i <;> simp [reciprocals3, cross, dot3] <;> field_simp <;> norm_num

theorem lookup_forall₂ (R : R3 → R3 → Prop) (l l' : List (String × R3))
    (h : List.Forall₂ (fun a b => a.1 = b.1 ∧ R a.2 b.2) l l') (s : String) :
    (l.lookup s).isSome = (l'.lookup s).isSome ∧ ∀ p q, l.lookup s = some p → l'.lookup s = some q → R p q := by
  induction h with
  | nil => simp
  | @cons a b l l' hab _ ih =>
    obtain ⟨a1, a2⟩ := a
    obtain ⟨b1, b2⟩ := b
    obtain ⟨h1, h2⟩ := hab
    simp only at h1 h2
    subst h1
    rw [List.lookup_cons, List.lookup_cons]
    by_cases hs : s == a1
    · simp only [hs]
      refine ⟨rfl, fun p q hp hq => ?_⟩
      rw [Option.some.injEq] at hp hq
      rw [← hp, ← hq]
      exact h2
    · simp only [hs]
      exact ih

/-- C104: the same label denotes the same point in both descriptions of the body-centred cubic and the base-centred
orthorhombic lattice, and in simple and body-centred tetragonal lattices. -/
theorem C104_generated (i j : Int) (hij : (i, j) ∈ ([(3, -3), (9, -9), (7, 6)] : List (Int × Int))) (cd : Fin 6 → ℝ)
    (h0 : cd 0 ≠ 0) (h1 : cd 1 ≠ 0) (h2 : cd 2 ≠ 0) (s : String) :
    (labelled i s).isSome = (labelled j s).isSome ∧
    ∀ p q, labelled i s = some p → labelled j s = some q → ∃ k, cartesian i cd p = some k ∧ cartesian j cd q = some k := by
  obtain ⟨-, r6, -⟩ := recip_ortho cd h0 h1 h2
  obtain ⟨-, r3, r3'⟩ := recip_fcc cd h0
  obtain ⟨r7, r9, r9'⟩ := recip_other cd h0 h1 h2
  refine lookup_forall₂ (fun p q => ∃ k, cartesian i cd p = some k ∧ cartesian j cd q = some k) _ _ ?_ s
  simp only [List.mem_cons, List.not_mem_nil, or_false, Prod.mk.injEq] at hij
  rcases hij with ⟨rfl, rfl⟩ | ⟨rfl, rfl⟩ | ⟨rfl, rfl⟩
  · simp only [cartesian_eq, r3, r3', Option.map_some, Option.some.injEq, exists_eq_left', specialPoints, reduceIte, Int.reduceEq,
      Int.reduceNeg, List.cons_append, List.nil_append, List.forall₂_cons, List.Forall₂.nil, true_and, and_true]
    refine ⟨?_, ?_, ?_, ?_⟩ <;>
    · ext x
      fin_cases x <;> simp [crystalToCartesian] <;> ring
  · simp only [cartesian_eq, r9, r9', Option.map_some, Option.some.injEq, exists_eq_left', specialPoints, reduceIte, Int.reduceEq,
      Int.reduceNeg, List.cons_append, List.nil_append, List.forall₂_cons, List.Forall₂.nil, true_and, and_true]
    refine ⟨?_, ?_, ?_, ?_, ?_, ?_, ?_, ?_⟩ <;>
    · ext x
      fin_cases x <;> simp [crystalToCartesian] <;> ring
  · simp only [cartesian_eq, r7, r6, Option.map_some, Option.some.injEq, exists_eq_left', specialPoints, reduceIte, Int.reduceEq,
      Int.reduceNeg, List.cons_append, List.nil_append, List.forall₂_cons, List.Forall₂.nil, true_and, and_true]
    refine ⟨?_, ?_, ?_, ?_, ?_, ?_⟩ <;>
    · ext x
      fin_cases x <;> simp [crystalToCartesian] <;> ring

/-- C104 does not hold for the two descriptions of the monoclinic lattice: the labels have the same crystal coordinates
although the angle is not between the same lattice vectors. `Y` is half the reciprocal vector along the unique axis in one case
only: the other one is not parallel to any of its lattice vectors. -/
theorem C104_monoclinic_violated : ∃ (cd cd' : Fin 6 → ℝ) (p q k l : R3), labelled 12 "Y" = some p ∧ labelled (-12) "Y" = some q ∧
    cd 3 = cd' 4 ∧ cartesian 12 cd p = some k ∧ cartesian (-12) cd' q = some l ∧ dot3 k k ≠ dot3 l l ∧
    cd 0 = 1 ∧ cd 1 = 1 ∧ cd 2 = 1 ∧ cd' 0 = 1 ∧ cd' 1 = 1 ∧ cd' 2 = 1 := by
  have hs : √(1 - (3 / 5 : ℝ) ^ 2) = 4 / 5 := by
    rw [show 1 - (3 / 5 : ℝ) ^ 2 = (4 / 5) ^ 2 by norm_num, Real.sqrt_sq (by norm_num)]
  refine ⟨![1, 1, 1, 3 / 5, 0, 0], ![1, 1, 1, 0, 3 / 5, 0], ![0, 1 / 2, 0], ![0, 1 / 2, 0], ![0, 5 / 8, 0], ![0, 1 / 2, 0], ?_, ?_,
    by simp, ?_, ?_, ?_, by simp, by simp, by simp, by simp, by simp, by simp⟩
  · simp [labelled, specialPoints, List.lookup]
  · simp [labelled, specialPoints, List.lookup]
  · simp only [cartesian, latgen, reduceIte, Int.reduceEq, Int.reduceNeg, Option.map_some, Option.some.injEq]
    ext x
    fin_cases x <;> simp [reciprocals3, cross, dot3, crystalToCartesian, hs]
    norm_num
  · simp only [cartesian, latgen, reduceIte, Int.reduceEq, Int.reduceNeg, Option.map_some, Option.some.injEq]
    ext x
    fin_cases x <;> simp [reciprocals3, cross, dot3, crystalToCartesian, hs]
  · simp [dot3]
    norm_num

example : labelled 4 "K" = some ![1 / 3, 1 / 3, 0] := by simp [labelled, specialPoints, List.lookup]

end Verif.Bravais
