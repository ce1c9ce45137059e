import Verif.Text.Wigner
import Verif.Misc.Lemmas

/-!
# Electron-phonon coupling: initialization from files and `to_epmatwp` (C49)
-/

namespace Verif.Text

open Verif.Lattice (V3)
open Verif.Misc (getElem?_flatMap_range length_flatMap_range)

/-- Parts of `ph.Model` used here: number of atoms, masses, long-range terms, division by masses. -/
structure Phonons where
  nat : Nat
  M : Nat → ℝ
  lr : Bool
  divideMass : Bool

/-- Coupling `R, x, R', a, b`. -/
abbrev Data := Nat → Nat → Nat → Nat → Nat → ℂ

/-- `elph.Model`: lattice vectors, degeneracies with shapes, coupling, flags. -/
structure Coupling where
  Rk : List V3
  /-- `dk.shape[:2]` -/
  sk : Nat × Nat
  dk : Nat → Nat → Nat → Int
  Rg : List V3
  /-- `dg.shape[:3]` -/
  sg : Nat × Nat × Nat
  dg : Nat → Nat → Nat → Nat → Int
  data : Data
  divideMass : Bool
  divideNdegen : Bool

/-- `elphmod/elph.py` 310-341 (`divide_degeneracy`). -/
noncomputable def divideDegeneracy (sk : Nat × Nat) (dk : Nat → Nat → Nat → Int) (sg : Nat × Nat × Nat)
    (dg : Nat → Nat → Nat → Nat → Int) (g : Data) : Data := fun irg x irk m n =>
  let d := dk (if sk.1 > 1 then n else 0) (if sk.2 > 1 then m else 0) irk
  let g1 := if d ≠ 0 then g irg x irk m n / (d : ℂ) else 0
  let e := dg (if sg.1 > 1 then n else 0) (if sg.2.1 > 1 then m else 0) (if sg.2.2 > 1 then x / 3 else 0) irg
  if e ≠ 0 then g1 / (e : ℂ) else 0

/-- `elphmod/elph.py` 267-271: parts of the file that belong to the lattice vectors `R` (as many as possible). -/
def chunks (size : Nat) : Nat → List ℂ → Option (List (List ℂ))
  | 0, _ => some []
  | c + 1, l => if (l.take size).length = size then (chunks size c (l.drop size)).map (l.take size :: ·) else none

/-- `elphmod/elph.py` 226-308 (`Model.__init__`) for given files; `n` is the number of orbitals. Degeneracies are read by
`read_wigner_file` as arrays of shapes `dims, dims, nrr_k` and `1, dims, dims2, nrr_g`. -/
noncomputable def init (ph : Phonons) (n : Nat) (divideMass divideNdegen : Bool) (wigner : Str) (epmatwp : List ℂ) :
    Option Coupling := do
  let (dims, dims2, K, G) ← readWigner wigner
  let sk := (dims, dims)
  let dk := fun iw2 iw ir => ((((K.map Prod.snd).getD ir []).getD iw []).getD iw2 0)
  let sg := (1, dims, dims2)
  let dg := fun (_ : Nat) iw na ir => ((((G.map Prod.snd).getD ir []).getD iw []).getD na 0)
  let size := ph.nat * 3 * K.length * n * n
  let parts ← chunks size G.length epmatwp
  let data0 : Data := fun irg x r a b => (parts.getD irg []).getD (((x * K.length + r) * n + b) * n + a) 0
  let data1 := if divideNdegen then divideDegeneracy sk dk sg dg data0 else data0
  let dm := if ph.lr ∧ ph.divideMass ≠ divideMass then ph.divideMass else divideMass
  let data2 : Data := if dm then fun irg x r a b => data1 irg x r a b / (Real.sqrt (ph.M (x / 3)) : ℂ) else data1
  return ⟨K.map Prod.fst, sk, dk, G.map Prod.fst, sg, dg, data2, divideMass, divideNdegen⟩

/-- `elphmod/elph.py` 776-801: the `.wigner` file. -/
def Coupling.wigner (c : Coupling) : Str :=
  let dims := if c.divideNdegen then 1 else c.sg.2.1
  let dims2 := if c.divideNdegen then 1 else c.sg.2.2
  let dk := if c.divideNdegen then fun _ _ _ => 1 else c.dk
  let dg := if c.divideNdegen then fun _ _ _ _ => 1 else c.dg
  writeWigner dims dims2
    (c.Rk.mapIdx fun ir R => (R, (List.range dims).map fun iw => (List.range dims).map fun iw2 => dk iw2 iw ir))
    (c.Rg.mapIdx fun ir R => (R, (List.range dims).map fun iw => (List.range dims2).map fun na => dg 0 iw na ir))

/-- `elphmod/elph.py` 803-814: the `.epmatwp` file. -/
noncomputable def Coupling.epmatwp (ph : Phonons) (n : Nat) (c : Coupling) : List ℂ :=
  (List.range c.Rg.length).flatMap fun g => (List.range ph.nat).flatMap fun na => (List.range 3).flatMap fun x =>
    (List.range c.Rk.length).flatMap fun r => (List.range n).flatMap fun b => (List.range n).map fun a =>
      if c.divideMass then c.data g (3 * na + x) r a b * (Real.sqrt (ph.M na) : ℂ) else c.data g (3 * na + x) r a b

/-! ### Binary file -/

theorem lt_block {i m j n : Nat} (hi : i < m) (hj : j < n) : i * n + j < m * n := by
  calc i * n + j < (i + 1) * n := by rw [Nat.succ_mul]; omega
    _ ≤ m * n := Nat.mul_le_mul_right _ hi

theorem chunks_flatMap (size c s : Nat) (f : Nat → List ℂ) (h : ∀ i, (f i).length = size) :
    chunks size c ((List.range' s c).flatMap f) = some ((List.range' s c).map f) := by
  induction c generalizing s with
  | zero => rfl
  | succ c ih =>
    have ht : List.take size (f s ++ (List.range' (s + 1) c).flatMap f) = f s := by
      rw [← h s, List.take_left]
    have hd : List.drop size (f s ++ (List.range' (s + 1) c).flatMap f) = (List.range' (s + 1) c).flatMap f := by
      rw [← h s, List.drop_left]
    rw [List.range'_succ, List.flatMap_cons, List.map_cons, chunks, ht, hd, if_pos (h s), ih]
    rfl

/-- One lattice vector of the binary file. -/
noncomputable def part (ph : Phonons) (n : Nat) (c : Coupling) (g : Nat) : List ℂ :=
  (List.range ph.nat).flatMap fun na => (List.range 3).flatMap fun x =>
    (List.range c.Rk.length).flatMap fun r => (List.range n).flatMap fun b => (List.range n).map fun a =>
      if c.divideMass then c.data g (3 * na + x) r a b * (Real.sqrt (ph.M na) : ℂ) else c.data g (3 * na + x) r a b

theorem part_length (ph : Phonons) (n : Nat) (c : Coupling) (g : Nat) :
    (part ph n c g).length = ph.nat * (3 * (c.Rk.length * (n * n))) := by
  unfold part
  refine length_flatMap_range _ _ _ fun na => length_flatMap_range _ _ _ fun x => length_flatMap_range _ _ _ fun r =>
    length_flatMap_range _ _ _ fun b => by simp

theorem part_get (ph : Phonons) (n : Nat) (c : Coupling) (g x r a b : Nat) (hx : x < ph.nat * 3) (hr : r < c.Rk.length)
    (ha : a < n) (hb : b < n) : (part ph n c g).getD (((x * c.Rk.length + r) * n + b) * n + a) 0 =
      if c.divideMass then c.data g x r a b * (Real.sqrt (ph.M (x / 3)) : ℂ) else c.data g x r a b := by
  have hna : x / 3 < ph.nat := by omega
  have hx3 : x % 3 < 3 := by omega
  have hxx : 3 * (x / 3) + x % 3 = x := by omega
  have e : ((x * c.Rk.length + r) * n + b) * n + a = x / 3 * (3 * (c.Rk.length * (n * n))) +
      (x % 3 * (c.Rk.length * (n * n)) + (r * (n * n) + (b * n + a))) := by
    conv_lhs => rw [← hxx]
    ring
  have l1 := lt_block hb ha
  have l2 := lt_block hr l1
  have l3 := lt_block hx3 l2
  have len : ∀ f : Nat → ℂ, ((List.range n).map f).length = n := fun f => by simp
  rw [List.getD_eq_getElem?_getD]
  unfold part
  rw [e, getElem?_flatMap_range ph.nat (3 * (c.Rk.length * (n * n))) _ (fun na => length_flatMap_range _ _ _ fun x =>
      length_flatMap_range _ _ _ fun r => length_flatMap_range _ _ _ fun b => len _) _ _ hna l3,
    getElem?_flatMap_range 3 (c.Rk.length * (n * n)) _ (fun x => length_flatMap_range _ _ _ fun r =>
      length_flatMap_range _ _ _ fun b => len _) _ _ hx3 l2,
    getElem?_flatMap_range c.Rk.length (n * n) _ (fun r => length_flatMap_range _ _ _ fun b => len _) _ _ hr l1,
    getElem?_flatMap_range n n _ (fun b => len _) _ _ hb ha, List.getElem?_map, List.getElem?_range ha]
  simp only [Option.map_some, Option.getD_some, hxx]

theorem chunks_epmatwp (ph : Phonons) (n : Nat) (c : Coupling) :
    chunks (ph.nat * 3 * c.Rk.length * n * n) c.Rg.length (c.epmatwp ph n) =
      some ((List.range c.Rg.length).map (part ph n c)) := by
  have := chunks_flatMap (ph.nat * 3 * c.Rk.length * n * n) c.Rg.length 0 (part ph n c) fun g => by
    rw [part_length]
    ring
  rw [← List.range_eq_range'] at this
  exact this

/-! ### C49 -/

theorem mapIdx_fst {β : Type} (l : List V3) (f : Nat → β) : (l.mapIdx fun i R => (R, f i)).map Prod.fst = l := by
  apply List.ext_getElem?
  intro i
  rw [List.getElem?_map, List.getElem?_mapIdx]
  cases l[i]? <;> rfl

theorem mapIdx_snd {β : Type} (l : List V3) (f : Nat → β) (i : Nat) (hi : i < l.length) (d : β) :
    ((l.mapIdx fun i R => (R, f i)).map Prod.snd).getD i d = f i := by
  rw [List.getD_eq_getElem?_getD, List.getElem?_map, List.getElem?_mapIdx, List.getElem?_eq_getElem hi]
  rfl

theorem getD_range_map {β : Type} (n i : Nat) (f : Nat → β) (hi : i < n) (d : β) : ((List.range n).map f).getD i d = f i := by
  rw [List.getD_eq_getElem?_getD, List.getElem?_map, List.getElem?_range hi]
  rfl

theorem divide_one (dk : Nat → Nat → Nat → Int) (dg : Nat → Nat → Nat → Nat → Int) (d : Data) (g x r a b : Nat)
    (h1 : dk 0 0 r = 1) (h2 : dg 0 0 0 g = 1) : divideDegeneracy (1, 1) dk (1, 1, 1) dg d g x r a b = d g x r a b := by
  simp [divideDegeneracy, h1, h2]

/-- C49 (missing: contradictory settings for phonons with long-range terms, see `C49_violated`): reading the written files
with the same settings returns the same lattice vectors and coupling and, if the coupling has not been divided by the
degeneracies, the same degeneracies (provided that they are given for one of the two orbitals, as in current versions of
EPW). -/
theorem C49_partial (ph : Phonons) (n : Nat) (c : Coupling) (hM : ∀ i, i < ph.nat → 0 < ph.M i)
    (hlr : ph.lr = true → ph.divideMass = c.divideMass) (hs : c.divideNdegen = true ∨ c.sk = (c.sg.2.1, c.sg.2.1)) :
    ∃ c', init ph n c.divideMass c.divideNdegen c.wigner (c.epmatwp ph n) = some c' ∧ c'.Rk = c.Rk ∧ c'.Rg = c.Rg ∧
      c'.divideMass = c.divideMass ∧ c'.divideNdegen = c.divideNdegen ∧
      (∀ g x r a b, g < c.Rg.length → x < ph.nat * 3 → r < c.Rk.length → a < n → b < n →
        c'.data g x r a b = c.data g x r a b) ∧
      (c.divideNdegen = false → c'.sk = c.sk ∧ c'.sg = (1, c.sg.2) ∧
        (∀ i j r, i < c.sk.1 → j < c.sk.2 → r < c.Rk.length → c'.dk i j r = c.dk i j r) ∧
        ∀ j k g, j < c.sg.2.1 → k < c.sg.2.2 → g < c.Rg.length → c'.dg 0 j k g = c.dg 0 j k g) := by
  have hdm : (if ph.lr ∧ ph.divideMass ≠ c.divideMass then ph.divideMass else c.divideMass) = c.divideMass := by
    split
    · rename_i h
      exact absurd (hlr h.1) h.2
    · rfl
  have hcancel : ∀ g x r a b, g < c.Rg.length → x < ph.nat * 3 → r < c.Rk.length → a < n → b < n →
      (if c.divideMass then (((List.range c.Rg.length).map (part ph n c)).getD g []).getD
        (((x * c.Rk.length + r) * n + b) * n + a) 0 / (Real.sqrt (ph.M (x / 3)) : ℂ) else
        (((List.range c.Rg.length).map (part ph n c)).getD g []).getD (((x * c.Rk.length + r) * n + b) * n + a) 0) =
      c.data g x r a b := by
    intro g x r a b hg hx hr ha hb
    rw [getD_range_map _ _ _ hg, part_get ph n c g x r a b hx hr ha hb]
    split
    · have : (Real.sqrt (ph.M (x / 3)) : ℂ) ≠ 0 := by
        exact_mod_cast (Real.sqrt_pos.2 (hM (x / 3) (by omega))).ne'
      rw [mul_div_cancel_right₀ _ this]
    · rfl
  unfold Coupling.wigner
  cases hn : c.divideNdegen with
  | true =>
    simp only [if_true]
    unfold init
    rw [readWigner_writeWigner]
    rotate_left
    · intro e he
      obtain ⟨i, hi, rfl⟩ := List.mem_mapIdx.1 he
      simp
    · intro e he
      obtain ⟨i, hi, rfl⟩ := List.mem_mapIdx.1 he
      simp
    simp only [Option.bind_eq_bind, Option.bind_some, List.length_mapIdx, chunks_epmatwp, mapIdx_fst, hdm]
    refine ⟨_, rfl, rfl, rfl, rfl, rfl, ?_, fun h => absurd h (by simp)⟩
    intro g x r a b hg hx hr ha hb
    have hk1 := mapIdx_snd c.Rk (fun _ => (List.range 1).map fun _ => (List.range 1).map fun _ => (1 : Int)) _ hr []
    have hg1 := mapIdx_snd c.Rg (fun _ => (List.range 1).map fun _ => (List.range 1).map fun _ => (1 : Int)) _ hg []
    have := hcancel g x r a b hg hx hr ha hb
    rw [← this]
    by_cases hc : c.divideMass = true
    · simp only [hc, if_true]
      rw [divide_one _ _ _ g x r a b (by rw [hk1]; simp) (by rw [hg1]; simp)]
    · simp only [hc, if_false, if_true, Bool.false_eq_true]
      rw [divide_one _ _ _ g x r a b (by rw [hk1]; simp) (by rw [hg1]; simp)]
  | false =>
    have hs' : c.sk = (c.sg.2.1, c.sg.2.1) := by
      rcases hs with h | h
      · rw [hn] at h
        exact absurd h (by simp)
      · exact h
    simp only [Bool.false_eq_true, if_false]
    unfold init
    rw [readWigner_writeWigner]
    rotate_left
    · intro e he
      obtain ⟨i, hi, rfl⟩ := List.mem_mapIdx.1 he
      simp
    · intro e he
      obtain ⟨i, hi, rfl⟩ := List.mem_mapIdx.1 he
      simp
    simp only [Option.bind_eq_bind, Option.bind_some, List.length_mapIdx, chunks_epmatwp, mapIdx_fst, hdm]
    refine ⟨_, rfl, rfl, rfl, rfl, rfl, ?_, fun _ => ⟨?_, rfl, ?_, ?_⟩⟩
    · intro g x r a b hg hx hr ha hb
      have := hcancel g x r a b hg hx hr ha hb
      rw [← this]
      by_cases hc : c.divideMass = true
      · simp [hc]
      · simp [hc]
    · exact hs'.symm
    · intro i j r hi hj hr
      rw [hs'] at hi hj
      simp only
      rw [mapIdx_snd _ (fun ir => (List.range c.sg.2.1).map fun iw => (List.range c.sg.2.1).map fun iw2 => c.dk iw2 iw ir) _ hr,
        getD_range_map _ _ _ hj, getD_range_map _ _ _ hi]
    · intro j k g hj hk hg
      simp only
      rw [mapIdx_snd _ (fun ir => (List.range c.sg.2.1).map fun iw => (List.range c.sg.2.2).map fun na => c.dg 0 iw na ir) _ hg,
        getD_range_map _ _ _ hj, getD_range_map _ _ _ hk]

/-- One atom of mass 4. -/
def heavy (lr divideMass : Bool) : Phonons := ⟨1, fun _ => 4, lr, divideMass⟩

/-- Some coupling with one orbital and one lattice vector. -/
def someCoupling (divideMass : Bool) : Coupling :=
  ⟨[(0, 0, 0)], (1, 1), fun _ _ _ => 1, [(0, 0, 0)], (1, 1, 1), fun _ _ _ _ => 1, fun _ _ _ _ _ => 1, divideMass, true⟩

example : (∀ i, i < (heavy true true).nat → 0 < (heavy true true).M i) ∧
    ((heavy true true).lr = true → (heavy true true).divideMass = (someCoupling true).divideMass) :=
  ⟨fun _ _ => four_pos, fun _ => rfl⟩

/-- C49 does not hold if `divide_mass` of the phonons overrides that of the coupling, which happens with long-range terms
only: upon reading, the coupling is divided by the square root of the mass even if it should not, which is not undone upon
writing, so that it is divided again upon the next reading. -/
theorem C49_violated : ∃ c' , init (heavy true true) 1 false true (someCoupling false).wigner
      ((someCoupling false).epmatwp (heavy true true) 1) = some c' ∧
      c'.data 0 0 0 0 0 ≠ (someCoupling false).data 0 0 0 0 0 := by
  have hs : Real.sqrt 4 = 2 := by
    rw [show (4 : ℝ) = 2 ^ 2 by norm_num, Real.sqrt_sq (by norm_num)]
  have h1 : chunks 3 1 ((someCoupling false).epmatwp (heavy true true) 1) =
      some ((List.range 1).map (part (heavy true true) 1 (someCoupling false))) :=
    chunks_epmatwp (heavy true true) 1 (someCoupling false)
  have h2 := part_get (heavy true true) 1 (someCoupling false) 0 0 0 0 0 (by decide) (by decide) Nat.one_pos Nat.one_pos
  unfold init Coupling.wigner
  simp only [someCoupling, if_true]
  rw [readWigner_writeWigner]
  rotate_left
  · intro e he
    obtain ⟨i, hi, rfl⟩ := List.mem_mapIdx.1 he
    simp
  · intro e he
    obtain ⟨i, hi, rfl⟩ := List.mem_mapIdx.1 he
    simp
  simp only [Option.bind_eq_bind, Option.bind_some, List.length_mapIdx, List.length_cons, List.length_nil, heavy] at h1 h2 ⊢
  simp only [someCoupling] at h1 h2
  norm_num at h1 h2 ⊢
  rw [h1]
  refine ⟨_, rfl, ?_⟩
  simp [divideDegeneracy, h2, hs]

end Verif.Text
