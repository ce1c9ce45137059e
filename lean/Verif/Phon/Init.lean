import Verif.Phon.LongRange
import Verif.Phon.SumRules

/-!
# Mass-spring models from dynamical matrices: `ph.Model.__init__` in `elphmod/ph.py` without a file of force constants

The files, as read by `read_q` and `read_flfrc` (see C113), are lists of q points with dynamical matrices. Structure and masses are those of the first
file. Memory which is not initialized is represented by arbitrary values. Real numbers are exact.
-/

namespace Verif.Phon.Init

open Verif.Voronoi Verif.Fourier Verif.Phon

variable {n : Nat}

/-- Matrix of atoms and directions. -/
abbrev Mat (n : Nat) := Fin n × Fin 3 → Fin n × Fin 3 → ℂ

/-- `np.round`: nearest integer, half to even. -/
noncomputable def npRound (x : ℝ) : ℤ :=
  if Int.fract x < 1 / 2 then ⌊x⌋ else if 1 / 2 < Int.fract x then ⌊x⌋ + 1 else if ⌊x⌋ % 2 = 0 then ⌊x⌋ else ⌊x⌋ + 1

/-- `elphmod/ph.py` 246: crystal coordinates of a q point. -/
noncomputable def crystal (at' : Fin 3 → Fin 3 → ℝ) (q : Fin 3 → ℝ) : Fin 3 → ℝ := fun x => ∑ y, at' x y * q y

/-- `elphmod/ph.py` 248-249: index on the mesh. -/
noncomputable def index (n1 n2 n3 : Nat) (q : Fin 3 → ℝ) : V3 :=
  (npRound (q 0 * n1 / (2 * Real.pi)) % n1, npRound (q 1 * n2 / (2 * Real.pi)) % n2, npRound (q 2 * n3 / (2 * Real.pi)) % n3)

/-- `elphmod/ph.py` 242-252: one q point of one file. -/
noncomputable def store (n1 n2 n3 : Nat) (at' : Fin 3 → Fin 3 → ℝ) (M : Fin n → ℝ) (divideMass : Bool)
    (s : V3 → Option ((Fin 3 → ℝ) × Mat n)) (e : (Fin 3 → ℝ) × Mat n) : V3 → Option ((Fin 3 → ℝ) × Mat n) :=
  let D := if divideMass then divideByMass M e.2 else e.2
  let q := crystal at' e.1
  fun m => if m = index n1 n2 n3 q then some (q, D) else s m

/-- `elphmod/ph.py` 223-255: q points and dynamical matrices on the mesh. The list `files` contains the results of reading the files `1`, `2`, etc., the
number of which is taken from the file `0`; `none` stands for a missing file. -/
noncomputable def fill (n1 n2 n3 : Nat) (at' : Fin 3 → Fin 3 → ℝ) (M : Fin n → ℝ) (divideMass : Bool)
    (files : List (Option (List ((Fin 3 → ℝ) × Mat n)))) : Option (V3 → Option ((Fin 3 → ℝ) × Mat n)) :=
  files.foldlM (fun s file => file.map fun f => f.foldl (store n1 n2 n3 at' M divideMass) s) fun _ => none

/-- `elphmod/ph.py` 226-227, 320-322 and 512-535: model without long-range terms; `garbage` is the content of the array before. -/
noncomputable def init (size n1 n2 n3 : Nat) (at' : Fin 3 → Fin 3 → ℝ) (r : Fin n → Fin 3 → ℝ) (M : Fin n → ℝ) (divideMass : Bool)
    (garbage : V3 → (Fin 3 → ℝ) × Mat n) (files : List (Option (List ((Fin 3 → ℝ) × Mat n)))) : Option (List (V3 × Mat n)) := do
  let s ← fill n1 n2 n3 at' M divideMass files
  phQ2r size n1 n2 n3 at' r M divideMass divideMass true fun m => ((s m).getD (garbage m)).2

/-- `elphmod/ph.py` 226-227, 320-322 and 512-535: model with long-range terms. -/
noncomputable def initLr (size n1 n2 n3 : Nat) (p : Polar n) (Gmax : ℝ) (G2d : Bool) (garbage : V3 → (Fin 3 → ℝ) × Mat n)
    (files : List (Option (List ((Fin 3 → ℝ) × Mat n)))) : Option (List (V3 × Mat n)) := do
  let s ← fill n1 n2 n3 p.a p.M p.divideMass files
  phQ2r size n1 n2 n3 p.a p.r p.M p.divideMass p.divideMass true fun m i j =>
    ((s m).getD (garbage m)).2 i j - Dlr p Gmax G2d ((s m).getD (garbage m)).1 i j

/-! ### Properties -/

theorem npRound_near (x : ℝ) (m : ℤ) (h : |x - m| < 1 / 2) : npRound x = m := by
  rw [abs_lt] at h
  have hf := Int.fract_add_floor x
  have h0 := Int.fract_nonneg x
  have h1 := Int.fract_lt_one x
  unfold npRound
  split
  · rw [Int.floor_eq_iff]
    rename_i h2
    have : ⌊x⌋ = m := by
      have a1 : (⌊x⌋ : ℝ) < m + 1 := by linarith
      have a2 : (m : ℝ) < ⌊x⌋ + 1 := by linarith
      have a1 : ⌊x⌋ < m + 1 := by exact_mod_cast a1
      have a2 : m < ⌊x⌋ + 1 := by exact_mod_cast a2
      omega
    rw [← this]
    exact ⟨Int.floor_le x, Int.lt_floor_add_one x⟩
  · split
    · have a1 : (⌊x⌋ : ℝ) < m := by linarith
      have a2 : (m : ℝ) < ⌊x⌋ + 2 := by linarith
      have a1 : ⌊x⌋ < m := by exact_mod_cast a1
      have a2 : m < ⌊x⌋ + 2 := by exact_mod_cast a2
      omega
    · rename_i h2 h3
      have h4 : Int.fract x = 1 / 2 := le_antisymm (not_lt.1 h3) (not_lt.1 h2)
      exfalso
      have a1 : (⌊x⌋ : ℝ) < m := by linarith
      have a2 : (m : ℝ) < ⌊x⌋ + 1 := by linarith
      have a1 : ⌊x⌋ < m := by exact_mod_cast a1
      have a2 : m < ⌊x⌋ + 1 := by exact_mod_cast a2
      omega

/-- A q point of the file belongs to the mesh point `m`, up to rounding errors. -/
def Near (n1 n2 n3 : Nat) (at' : Fin 3 → Fin 3 → ℝ) (q : Fin 3 → ℝ) (m : V3) : Prop :=
  ∃ z : V3, |crystal at' q 0 * n1 / (2 * Real.pi) - (m.1 + n1 * z.1)| < 1 / 2 ∧
    |crystal at' q 1 * n2 / (2 * Real.pi) - (m.2.1 + n2 * z.2.1)| < 1 / 2 ∧
    |crystal at' q 2 * n3 / (2 * Real.pi) - (m.2.2 + n3 * z.2.2)| < 1 / 2

theorem near_index (n1 n2 n3 : Nat) (at' : Fin 3 → Fin 3 → ℝ) (q : Fin 3 → ℝ) (m : V3) (hm : IsMesh n1 n2 n3 m) (h : Near n1 n2 n3 at' q m) :
    index n1 n2 n3 (crystal at' q) = m := by
  obtain ⟨z, h1, h2, h3⟩ := h
  obtain ⟨⟨a1, b1⟩, ⟨a2, b2⟩, a3, b3⟩ := hm
  have e : ∀ (k : Nat) (y : ℝ) (m z : ℤ), 0 ≤ m → m < k → |y - (m + k * z)| < 1 / 2 → npRound y % k = m := by
    intro k y m z hm hk h
    rw [npRound_near y (m + k * z) (by push_cast; exact h), Int.add_mul_emod_self_left]
    exact Int.emod_eq_of_lt hm hk
  unfold index
  rw [e n1 _ m.1 z.1 a1 b1 h1, e n2 _ m.2.1 z.2.1 a2 b2 h2, e n3 _ m.2.2 z.2.2 a3 b3 h3]

/-- All points in all files. -/
def points (files : List (List ((Fin 3 → ℝ) × Mat n))) : List ((Fin 3 → ℝ) × Mat n) := files.flatten

theorem fill_eq (n1 n2 n3 : Nat) (at' : Fin 3 → Fin 3 → ℝ) (M : Fin n → ℝ) (divideMass : Bool) (files : List (List ((Fin 3 → ℝ) × Mat n))) :
    fill n1 n2 n3 at' M divideMass (files.map some) = some ((points files).foldl (store n1 n2 n3 at' M divideMass) fun _ => none) := by
  unfold fill points
  generalize (fun _ : V3 => (none : Option ((Fin 3 → ℝ) × Mat n))) = s
  induction files generalizing s with
  | nil => rfl
  | cons f files ih =>
    rw [List.map_cons, List.foldlM_cons, List.flatten_cons, List.foldl_append]
    exact ih _

/-- The matrix which is stored. -/
noncomputable def divided (M : Fin n → ℝ) (divideMass : Bool) (D : Mat n) : Mat n := if divideMass then divideByMass M D else D

theorem fold_some (n1 n2 n3 : Nat) (at' : Fin 3 → Fin 3 → ℝ) (M : Fin n → ℝ) (divideMass : Bool) (l : List ((Fin 3 → ℝ) × Mat n))
    (s : V3 → Option ((Fin 3 → ℝ) × Mat n)) (m : V3) :
    (l.foldl (store n1 n2 n3 at' M divideMass) s m = s m ∧ ∀ e ∈ l, index n1 n2 n3 (crystal at' e.1) ≠ m) ∨
      ∃ e ∈ l, index n1 n2 n3 (crystal at' e.1) = m ∧
        l.foldl (store n1 n2 n3 at' M divideMass) s m = some (crystal at' e.1, divided M divideMass e.2) := by
  induction l generalizing s with
  | nil => exact Or.inl ⟨rfl, by simp⟩
  | cons f l ih =>
    rw [List.foldl_cons]
    rcases ih (store n1 n2 n3 at' M divideMass s f) with ⟨h1, h2⟩ | ⟨e, he, h1, h2⟩
    · by_cases hm : m = index n1 n2 n3 (crystal at' f.1)
      · refine Or.inr ⟨f, List.mem_cons_self, hm.symm, ?_⟩
        rw [h1]
        unfold store
        rw [if_pos hm]
        rfl
      · refine Or.inl ⟨?_, ?_⟩
        · rw [h1]
          unfold store
          rw [if_neg hm]
        · intro e he
          rcases List.mem_cons.1 he with rfl | he
          · exact fun h => hm h.symm
          · exact h2 e he
    · exact Or.inr ⟨e, List.mem_cons_of_mem _ he, h1, h2⟩

/-- The files list dynamical matrices for all points of the mesh (specification); equivalent points have the same matrix. -/
structure Complete (n1 n2 n3 : Nat) (at' : Fin 3 → Fin 3 → ℝ) (files : List (List ((Fin 3 → ℝ) × Mat n))) (D : V3 → Mat n) : Prop where
  covered : ∀ m, IsMesh n1 n2 n3 m → ∃ f ∈ files, ∃ e ∈ f, Near n1 n2 n3 at' e.1 m
  listed : ∀ f ∈ files, ∀ e ∈ f, ∃ m, IsMesh n1 n2 n3 m ∧ Near n1 n2 n3 at' e.1 m ∧ e.2 = D m

theorem fill_complete (n1 n2 n3 : Nat) (at' : Fin 3 → Fin 3 → ℝ) (M : Fin n → ℝ) (divideMass : Bool) (files : List (List ((Fin 3 → ℝ) × Mat n)))
    (D : V3 → Mat n) (h : Complete n1 n2 n3 at' files D) (m : V3) (hm : IsMesh n1 n2 n3 m) :
    ∃ f ∈ files, ∃ e ∈ f, Near n1 n2 n3 at' e.1 m ∧
      (points files).foldl (store n1 n2 n3 at' M divideMass) (fun _ => none) m = some (crystal at' e.1, divided M divideMass (D m)) := by
  rcases fold_some n1 n2 n3 at' M divideMass (points files) (fun _ => none) m with ⟨-, h2⟩ | ⟨e, he, h1, h2⟩
  · obtain ⟨f, hf, e, he, hn⟩ := h.covered m hm
    exact absurd (near_index n1 n2 n3 at' e.1 m hm hn) (h2 e (List.mem_flatten.2 ⟨f, hf, he⟩))
  · obtain ⟨f, hf, hef⟩ := List.mem_flatten.1 he
    obtain ⟨m', hm', hn, hD⟩ := h.listed f hf e hef
    have : m' = m := by rw [← near_index n1 n2 n3 at' e.1 m' hm' hn, h1]
    subst this
    exact ⟨f, hf, e, hef, hn, by rw [h2, hD]⟩

theorem divided_eq (M : Fin n → ℝ) (divideMass : Bool) (D : Mat n) (a b : Fin n × Fin 3) :
    divided M divideMass D a b = massFactor false divideMass (M a.1) (M b.1) * D a b := by
  unfold divided
  cases divideMass
  · simp [massFactor]
  · simp only [if_true, C46_value, massFactor]
    push_cast
    ring

/-- C143: a model from complete files of dynamical matrices that obey time-reversal symmetry reproduces them at all points of the mesh, whatever the
number of files, the order of the points, the choice of equivalent points, the number of processes and the content of the memory before. -/
theorem C143_mesh (size : Nat) (hsize : 0 < size) (n1 n2 n3 : Nat) (at' : Fin 3 → Fin 3 → ℝ) (r : Fin n → Fin 3 → ℝ)
    (M : Fin n → ℝ) (hM : ∀ a, 0 < M a) (divideMass : Bool) (garbage : V3 → (Fin 3 → ℝ) × Mat n) (files : List (List ((Fin 3 → ℝ) × Mat n)))
    (D : V3 → Mat n) (h : Complete n1 n2 n3 at' files D)
    (hD : ∀ m, IsMesh n1 n2 n3 m → ∀ a b, D (negMesh n1 n2 n3 m) a b = star (D m a b)) :
    ∃ l, init size n1 n2 n3 at' r M divideMass garbage (files.map some) = some l ∧
      ∀ m, IsMesh n1 n2 n3 m → ∀ a b, bloch l (meshK n1 n2 n3 m) a b = massFactor false divideMass (M a.1) (M b.1) * D m a b := by
  unfold init
  rw [fill_eq]
  simp only [Option.bind_eq_bind, Option.bind_some]
  obtain ⟨l, hl, hb⟩ := C28_ph_general size hsize n1 n2 n3 at' r M hM divideMass divideMass fun m =>
    (((points files).foldl (store n1 n2 n3 at' M divideMass) (fun _ => none) m).getD (garbage m)).2
  refine ⟨l, hl, fun m hm a b => ?_⟩
  rw [hb m hm a b]
  obtain ⟨-, -, e1, -, -, h1⟩ := fill_complete n1 n2 n3 at' M divideMass files D h m hm
  obtain ⟨-, -, e2, -, -, h2⟩ := fill_complete n1 n2 n3 at' M divideMass files D h _ (negMesh_isMesh n1 n2 n3 m hm)
  rw [h1, h2, Option.getD_some, Option.getD_some]
  dsimp only
  rw [divided_eq, divided_eq, hD m hm a b, star_mul', star_star]
  have e : ∀ x y, star (massFactor false divideMass x y) = massFactor false divideMass x y := by
    intro x y
    cases divideMass
    · simp [massFactor]
    · simp [massFactor, Complex.conj_ofReal]
  have e' : massFactor divideMass divideMass (M a.1) (M b.1) = 1 := by cases divideMass <;> rfl
  rw [e, e']
  ring

/-- C143: with a missing file, initialization fails. -/
theorem C143_missing (size n1 n2 n3 : Nat) (at' : Fin 3 → Fin 3 → ℝ) (r : Fin n → Fin 3 → ℝ)
    (M : Fin n → ℝ) (divideMass : Bool) (garbage : V3 → (Fin 3 → ℝ) × Mat n) (files : List (Option (List ((Fin 3 → ℝ) × Mat n))))
    (h : none ∈ files) : init size n1 n2 n3 at' r M divideMass garbage files = none := by
  unfold init fill
  have : ∀ s : V3 → Option ((Fin 3 → ℝ) × Mat n), files.foldlM (fun s file => file.map fun f =>
      f.foldl (store n1 n2 n3 at' M divideMass) s) s = none := by
    induction files with
    | nil => simp at h
    | cons f files ih =>
      intro s
      rw [List.foldlM_cons]
      cases f with
      | none => rfl
      | some f => exact ih (by simpa using h) _
  rw [this]
  rfl

/-- C143 fails if the files do not list a point of the mesh (for example, because the file with the list of q points belongs to a coarser mesh): any
dynamical matrix may result there. There is no error. -/
theorem C143_incomplete_violated (size : Nat) (hsize : 0 < size) (n1 n2 n3 : Nat) (at' : Fin 3 → Fin 3 → ℝ) (r : Fin n → Fin 3 → ℝ)
    (M : Fin n → ℝ) (hM : ∀ a, 0 < M a) (divideMass : Bool) (files : List (List ((Fin 3 → ℝ) × Mat n))) (m : V3) (hm : IsMesh n1 n2 n3 m)
    (h1 : ∀ f ∈ files, ∀ e ∈ f, index n1 n2 n3 (crystal at' e.1) ≠ m)
    (h2 : ∀ f ∈ files, ∀ e ∈ f, index n1 n2 n3 (crystal at' e.1) ≠ negMesh n1 n2 n3 m) (X : Fin n × Fin 3 → Fin n × Fin 3 → ℝ) :
    ∃ garbage l, init size n1 n2 n3 at' r M divideMass garbage (files.map some) = some l ∧ ∀ a b, bloch l (meshK n1 n2 n3 m) a b = X a b := by
  refine ⟨fun _ => (fun _ => 0, fun a b => (X a b : ℂ)), ?_⟩
  unfold init
  rw [fill_eq]
  simp only [Option.bind_eq_bind, Option.bind_some]
  obtain ⟨l, hl, hb⟩ := C28_ph_general size hsize n1 n2 n3 at' r M hM divideMass divideMass fun m =>
    (((points files).foldl (store n1 n2 n3 at' M divideMass) (fun _ => none) m).getD (fun _ => 0, fun a b => (X a b : ℂ))).2
  refine ⟨l, hl, fun a b => ?_⟩
  rw [hb m hm a b]
  have e : ∀ m', (∀ f ∈ files, ∀ e ∈ f, index n1 n2 n3 (crystal at' e.1) ≠ m') →
      (points files).foldl (store n1 n2 n3 at' M divideMass) (fun _ => none) m' = none := by
    intro m' h
    rcases fold_some n1 n2 n3 at' M divideMass (points files) (fun _ => none) m' with ⟨h1, -⟩ | ⟨e, he, h1, -⟩
    · exact h1
    · obtain ⟨f, hf, hef⟩ := List.mem_flatten.1 he
      exact absurd h1 (h f hf e hef)
  have e' : massFactor divideMass divideMass (M a.1) (M b.1) = 1 := by cases divideMass <;> rfl
  rw [e m h1, e _ h2, e']
  simp [Complex.conj_ofReal]

theorem phase_periodic (R : V3) (k k' : Fin 3 → ℝ) (h : ∀ x, ∃ z : ℤ, k x = k' x + 2 * Real.pi * z) : phase R k = phase R k' := by
  obtain ⟨z0, h0⟩ := h 0
  obtain ⟨z1, h1⟩ := h 1
  obtain ⟨z2, h2⟩ := h 2
  unfold phase
  rw [Complex.exp_eq_exp_iff_exists_int]
  refine ⟨R.1 * z0 + R.2.1 * z1 + R.2.2 * z2, ?_⟩
  rw [h0, h1, h2]
  push_cast
  ring

theorem bloch_periodic (l : List (V3 × Mat n)) (k k' : Fin 3 → ℝ) (h : ∀ x, ∃ z : ℤ, k x = k' x + 2 * Real.pi * z) (a b : Fin n × Fin 3) :
    bloch l k a b = bloch l k' a b := by
  unfold bloch
  congr 1
  refine List.map_congr_left fun e _ => ?_
  rw [phase_periodic e.1 k k' h]

/-- C143: with long-range terms, the model reproduces the dynamical matrices at points in the files, one for each point of the mesh, if the short-range
parts, that is, the differences between the dynamical matrices and the long-range terms there, obey time-reversal symmetry. The long-range terms are those
at the very points in the files, not at equivalent points in another unit cell of the reciprocal lattice. -/
theorem C143_long_range (size : Nat) (hsize : 0 < size) (n1 n2 n3 : Nat) (p : Polar n) (hM : ∀ a, 0 < p.M a) (Gmax : ℝ) (G2d : Bool)
    (garbage : V3 → (Fin 3 → ℝ) × Mat n) (files : List (List ((Fin 3 → ℝ) × Mat n))) (D : V3 → Mat n) (h : Complete n1 n2 n3 p.a files D)
    (hq : ∀ f ∈ files, ∀ e ∈ f, ∀ m, IsMesh n1 n2 n3 m → Near n1 n2 n3 p.a e.1 m →
      ∀ x, ∃ z : ℤ, crystal p.a e.1 x = meshK n1 n2 n3 m x + 2 * Real.pi * z)
    (hD : ∀ f ∈ files, ∀ e ∈ f, ∀ f' ∈ files, ∀ e' ∈ f', ∀ m, IsMesh n1 n2 n3 m → Near n1 n2 n3 p.a e.1 m →
      Near n1 n2 n3 p.a e'.1 (negMesh n1 n2 n3 m) → ∀ a b,
        massFactor false p.divideMass (p.M a.1) (p.M b.1) * D (negMesh n1 n2 n3 m) a b - Dlr p Gmax G2d (crystal p.a e'.1) a b =
          star (massFactor false p.divideMass (p.M a.1) (p.M b.1) * D m a b - Dlr p Gmax G2d (crystal p.a e.1) a b)) :
    ∃ l, initLr size n1 n2 n3 p Gmax G2d garbage (files.map some) = some l ∧
      ∀ m, IsMesh n1 n2 n3 m → ∃ f ∈ files, ∃ e ∈ f, Near n1 n2 n3 p.a e.1 m ∧
        ∀ a b, Dfull p Gmax G2d l (crystal p.a e.1) a b = massFactor false p.divideMass (p.M a.1) (p.M b.1) * D m a b := by
  unfold initLr
  rw [fill_eq]
  simp only [Option.bind_eq_bind, Option.bind_some]
  obtain ⟨l, hl, hb⟩ := C28_ph_general size hsize n1 n2 n3 p.a p.r p.M hM p.divideMass p.divideMass fun m i j =>
    (((points files).foldl (store n1 n2 n3 p.a p.M p.divideMass) (fun _ => none) m).getD (garbage m)).2 i j -
      Dlr p Gmax G2d (((points files).foldl (store n1 n2 n3 p.a p.M p.divideMass) (fun _ => none) m).getD (garbage m)).1 i j
  refine ⟨l, hl, fun m hm => ?_⟩
  obtain ⟨f1, hf1, e1, he1, hn1, h1⟩ := fill_complete n1 n2 n3 p.a p.M p.divideMass files D h m hm
  obtain ⟨f2, hf2, e2, he2, hn2, h2⟩ := fill_complete n1 n2 n3 p.a p.M p.divideMass files D h _ (negMesh_isMesh n1 n2 n3 m hm)
  refine ⟨f1, hf1, e1, he1, hn1, fun a b => ?_⟩
  unfold Dfull
  rw [bloch_periodic l _ _ (hq f1 hf1 e1 he1 m hm hn1), hb m hm a b, h1, h2]
  simp only [Option.getD_some]
  have e' : massFactor p.divideMass p.divideMass (p.M a.1) (p.M b.1) = 1 := by cases p.divideMass <;> rfl
  rw [e', divided_eq, divided_eq, hD f1 hf1 e1 he1 f2 hf2 e2 he2 m hm hn1 hn2 a b, star_star]
  ring

/-! ### Examples -/

/-- One atom on a chain with two q points in two files, listed with an offset of a reciprocal lattice vector and a small deviation. -/
noncomputable def exampleFiles : List (List ((Fin 3 → ℝ) × Mat 1)) :=
  [[(fun _ => 0, fun _ _ => 0)], [(fun x => if x = 0 then -(2 * Real.pi) * (1 / 2 + 1 / 1000) else 0, fun a b => if a = b then 4 else 0)]]

theorem exampleComplete : Complete 2 1 1 (fun x y => if x = y then 1 else 0) exampleFiles
    fun m a b => if m.1 = 1 ∧ a = b then 4 else 0 := by
  have c : ∀ (q : Fin 3 → ℝ) x, crystal (fun x y => if x = y then 1 else 0) q x = q x := by
    intro q x
    simp [crystal]
  have n0 : Near 2 1 1 (fun x y => if x = y then 1 else 0) (fun _ => 0) (0, 0, 0) := ⟨(0, 0, 0), by simp [c], by simp [c], by simp [c]⟩
  have n1 : Near 2 1 1 (fun x y => if x = y then 1 else 0) (fun x => if x = 0 then -(2 * Real.pi) * (1 / 2 + 1 / 1000) else 0) (1, 0, 0) := by
    refine ⟨(-1, 0, 0), ?_, by simp [c], by simp [c]⟩
    rw [c]
    have : -(2 * Real.pi) * (1 / 2 + 1 / 1000) * 2 / (2 * Real.pi) = -(1 + 2 / 1000) := by
      have := Real.pi_pos.ne'
      field_simp
    simp only [if_true]
    push_cast
    rw [this, abs_lt]
    constructor <;> norm_num
  constructor
  · rintro ⟨a, b, c⟩ ⟨⟨h1, h2⟩, ⟨h3, h4⟩, h5, h6⟩
    simp only at h1 h2 h3 h4 h5 h6
    have hb : b = 0 := by omega
    have hc : c = 0 := by omega
    subst hb hc
    rcases (by omega : a = 0 ∨ a = 1) with rfl | rfl
    · exact ⟨_, List.mem_cons_self, _, List.mem_cons_self, n0⟩
    · exact ⟨_, List.mem_cons_of_mem _ List.mem_cons_self, _, List.mem_cons_self, n1⟩
  · intro f hf e he
    simp only [exampleFiles, List.mem_cons, List.not_mem_nil, or_false] at hf
    rcases hf with rfl | rfl
    · rw [List.mem_singleton] at he
      subst he
      exact ⟨(0, 0, 0), ⟨by decide, by decide, by decide⟩, n0, by funext a b; simp⟩
    · rw [List.mem_singleton] at he
      subst he
      exact ⟨(1, 0, 0), ⟨by decide, by decide, by decide⟩, n1, by funext a b; simp⟩

example (garbage : V3 → (Fin 3 → ℝ) × Mat 1) : ∃ l, init 3 2 1 1 (fun x y => if x = y then 1 else 0) (fun _ _ => 0) (fun _ => 2) true garbage
    (exampleFiles.map some) = some l ∧ bloch l (meshK 2 1 1 (1, 0, 0)) (0, 0) (0, 0) = 2 := by
  obtain ⟨l, hl, hb⟩ := C143_mesh 3 (by norm_num) 2 1 1 (fun x y => if x = y then 1 else 0) (fun _ _ => 0) (fun _ => 2) (fun _ => by norm_num)
    true garbage exampleFiles _ exampleComplete (by
      rintro ⟨a, b, c⟩ ⟨⟨h1, h2⟩, -, -⟩ i j
      simp only at h1 h2
      rcases (by omega : a = 0 ∨ a = 1) with rfl | rfl <;> simp [negMesh] <;> split <;> simp [Complex.conj_ofNat])
  refine ⟨l, hl, ?_⟩
  rw [hb (1, 0, 0) ⟨by decide, by decide, by decide⟩]
  simp only [massFactor]
  rw [Real.mul_self_sqrt (by norm_num)]
  norm_num

example : init 1 2 1 1 (fun x y => if x = y then 1 else 0) (fun _ _ => 0) (fun _ => 2) true (fun _ => (fun _ => 0, fun _ _ => 0))
    [some [(fun _ => 0, fun _ _ => 0)], (none : Option (List ((Fin 3 → ℝ) × Mat 1)))] = none :=
  C143_missing _ _ _ _ _ _ _ _ _ _ (by simp)

example (X : Fin 1 × Fin 3 → Fin 1 × Fin 3 → ℝ) : ∃ garbage l, init 1 2 1 1 (fun x y => if x = y then 1 else 0) (fun _ _ => 0) (fun _ => 2) true garbage
    ([[(fun _ => 0, fun _ _ => 0)]].map some) = some l ∧ ∀ a b, bloch l (meshK 2 1 1 (1, 0, 0)) a b = X a b := by
  have e : index 2 1 1 (crystal (fun x y => if x = y then 1 else 0) fun _ => 0) = (0, 0, 0) :=
    near_index 2 1 1 _ _ (0, 0, 0) ⟨by decide, by decide, by decide⟩ ⟨(0, 0, 0), by simp [crystal], by simp [crystal], by simp [crystal]⟩
  refine C143_incomplete_violated 1 one_pos 2 1 1 _ _ _ (fun _ => by norm_num) true _ _ ⟨by decide, by decide, by decide⟩ ?_ ?_ X
  all_goals
    intro f hf x hx
    rw [List.mem_singleton] at hf
    subst hf
    rw [List.mem_singleton] at hx
    subst hx
    rw [e]
    decide

/-- A polar crystal without division by masses. -/
noncomputable def examplePolar : Polar 2 := { polarExample with divideMass := false }

/-- A single dynamical matrix, listed at a reciprocal lattice vector. -/
noncomputable def exampleLr : List (List ((Fin 3 → ℝ) × Mat 2)) :=
  [[(fun x => if x = 0 then 2 * Real.pi / 10 else 0, fun a b => Dlr examplePolar 28 false (fun x => if x = 0 then 2 * Real.pi else 0) a b + 3)]]

example (garbage : V3 → (Fin 3 → ℝ) × Mat 2) : ∃ l, initLr 1 1 1 1 examplePolar 28 false garbage (exampleLr.map some) = some l ∧
    ∀ a b, Dfull examplePolar 28 false l (fun x => if x = 0 then 2 * Real.pi else 0) a b =
      Dlr examplePolar 28 false (fun x => if x = 0 then 2 * Real.pi else 0) a b + 3 := by
  have c : crystal examplePolar.a (fun x => if x = 0 then 2 * Real.pi / 10 else 0) = fun x => if x = 0 then 2 * Real.pi else 0 := by
    funext x
    fin_cases x <;> simp [crystal, examplePolar, polarExample, Fin.sum_univ_three]
    ring
  have z : ∀ m, IsMesh 1 1 1 m → m = (0, 0, 0) := by
    rintro ⟨a, b, c⟩ ⟨⟨h1, h2⟩, ⟨h3, h4⟩, h5, h6⟩
    simp only at h1 h2 h3 h4 h5 h6
    simp only [Prod.mk.injEq]
    omega
  have n0 : Near 1 1 1 examplePolar.a (fun x => if x = 0 then 2 * Real.pi / 10 else 0) (0, 0, 0) := by
    refine ⟨(1, 0, 0), ?_, ?_, ?_⟩ <;> rw [c]
    · simp only [if_true]
      push_cast
      rw [mul_one, div_self (by have := Real.pi_pos; positivity)]
      norm_num
    · simp
    · simp
  have m1 : ∀ x y, massFactor false examplePolar.divideMass x y = 1 := fun x y => rfl
  obtain ⟨l, hl, hb⟩ := C143_long_range 1 one_pos 1 1 1 examplePolar (by intro a; simp only [examplePolar, polarExample]; split <;> norm_num) 28 false
    garbage exampleLr (fun _ a b => Dlr examplePolar 28 false (fun x => if x = 0 then 2 * Real.pi else 0) a b + 3)
    (by
      constructor
      · intro m hm
        rw [z m hm]
        exact ⟨_, List.mem_cons_self, _, List.mem_cons_self, n0⟩
      · intro f hf e he
        rw [exampleLr, List.mem_singleton] at hf
        subst hf
        rw [List.mem_singleton] at he
        subst he
        exact ⟨(0, 0, 0), ⟨by decide, by decide, by decide⟩, n0, rfl⟩)
    (by
      intro f hf e he m hm _ x
      rw [exampleLr, List.mem_singleton] at hf
      subst hf
      rw [List.mem_singleton] at he
      subst he
      rw [z m hm, c]
      refine ⟨if x = 0 then 1 else 0, ?_⟩
      fin_cases x <;> simp [meshK])
    (by
      intro f hf e he f' hf' e' he' m hm _ _ a b
      rw [exampleLr, List.mem_singleton] at hf hf'
      subst hf hf'
      rw [List.mem_singleton] at he he'
      subst he he'
      rw [c, m1, one_mul, add_sub_cancel_left]
      simp [Complex.conj_ofNat])
  refine ⟨l, hl, ?_⟩
  obtain ⟨f, hf, e, he, -, h⟩ := hb (0, 0, 0) ⟨by decide, by decide, by decide⟩
  rw [exampleLr, List.mem_singleton] at hf
  subst hf
  rw [List.mem_singleton] at he
  subst he
  intro a b
  have := h a b
  rw [c, m1, one_mul] at this
  exact this

end Verif.Phon.Init
