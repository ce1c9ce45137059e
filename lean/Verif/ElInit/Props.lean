import Mathlib.Algebra.BigOperators.Group.List.Basic
import Mathlib.Algebra.BigOperators.Ring.List
import Mathlib.Analysis.SpecialFunctions.Complex.Circle
import Mathlib.Tactic.Linarith
import Mathlib.Tactic.NormNum
import Mathlib.Tactic.Ring
import Verif.ElInit.Model
import Verif.Text.Lemmas

/-!
# Property C138: tight-binding model from Wannier90 data with minimal distances
-/

namespace Verif.ElInit

open Verif.Text

/-! ### Specification -/

/-- Phase factor of a lattice vector for a k point with period 2π. -/
noncomputable def phase (k : ℝ × ℝ × ℝ) (R : Vec) : ℂ := Complex.exp (Complex.I * ((k.1 * R.1 + k.2.1 * R.2.1 + k.2.2 * R.2.2 : ℝ) : ℂ))

/-- Hamiltonian at a k point. -/
noncomputable def bloch {n : Nat} (data : List (Vec × Mat n)) (k : ℝ × ℝ × ℝ) (a b : Fin n) : ℂ := (data.map fun p => p.2 a b * phase k p.1).sum

/-- Text for a list of integers. -/
def Numbers (l : Str) (v : List Int) : Prop := (words l).mapM readInt = some v

/-- Entry of a *_wsvec.dat* file: lattice vector, orbitals counted from zero, supercell vectors. -/
structure Entry where
  R : Vec
  a : Nat
  b : Nat
  T : List Vec

/-- Lines of an entry. -/
def Gives (e : Entry) (ls : List Str) : Prop :=
  ∃ l c ts, ls = l :: c :: ts ∧ Numbers l [e.R.1, e.R.2.1, e.R.2.2, (e.a : Int) + 1, (e.b : Int) + 1] ∧ Numbers c [(e.T.length : Int)] ∧
    List.Forall₂ (fun t T => Numbers t [T.1, T.2.1, T.2.2]) ts e.T

/-- The file, after the first line, gives the entries. -/
def Describes (file : List Str) (es : List Entry) : Prop := ∃ head parts, file = head :: parts.flatten ∧ List.Forall₂ Gives es parts

/-- There is an entry with the vectors `S` for each matrix element. -/
def Complete {n : Nat} (Rs : List Vec) (es : List Entry) (S : Vec → Fin n → Fin n → List Vec) : Prop :=
  (∀ e ∈ es, ∀ a b : Fin n, e.a = a → e.b = b → e.T = S e.R a b) ∧
  ∀ R ∈ Rs, ∀ a b : Fin n, ∃ e ∈ es, e.R = R ∧ e.a = a ∧ e.b = b

/-! ### `read_wsvecdat` -/

theorem intLines_eq (ts : List Str) (Ts : List Vec) (h : List.Forall₂ (fun t T => Numbers t [T.1, T.2.1, T.2.2]) ts Ts) (r : List Str) :
    intLines Ts.length (ts ++ r) = some (Ts.map fun T => [T.1, T.2.1, T.2.2], r) := by
  induction h with
  | nil => rfl
  | cons h _ ih =>
    rw [List.cons_append, List.length_cons, intLines, h, ih]
    rfl

theorem numbers_one (l : Str) (z : Int) (h : Numbers l [z]) : ∃ w, words l = [w] ∧ readInt w = some z := by
  unfold Numbers at h
  cases hw : words l with
  | nil => rw [hw] at h; exact absurd h (by simp)
  | cons w ws =>
    rw [hw, List.mapM_cons] at h
    cases hr : readInt w with
    | none => rw [hr] at h; exact absurd h (by simp)
    | some x =>
      rw [hr] at h
      cases ws with
      | nil =>
        refine ⟨w, rfl, ?_⟩
        simp at h
        rw [hr, h]
      | cons w' ws =>
        rw [List.mapM_cons] at h
        cases hr' : readInt w' with
        | none => rw [hr'] at h; exact absurd h (by simp)
        | some y =>
          rw [hr'] at h
          cases hm : ws.mapM readInt with
          | none => rw [hm] at h; exact absurd h (by simp)
          | some vs => rw [hm] at h; exact absurd h (by simp)

/-- Entries as dictionary. -/
def dict (es : List Entry) (d : Key → Option (List (List Int))) : Key → Option (List (List Int)) :=
  es.foldl (fun d e key => if key = (e.R, (e.a : Int), (e.b : Int)) then some (e.T.map fun T => [T.1, T.2.1, T.2.2]) else d key) d

theorem wsLoop_eq (es : List Entry) (parts : List (List Str)) (h : List.Forall₂ Gives es parts) (n : Nat) (hn : parts.flatten.length ≤ n)
    (d : Key → Option (List (List Int))) : wsLoop n parts.flatten d = some (dict es d) := by
  induction h generalizing n d with
  | nil => cases n <;> rfl
  | @cons e p es parts he _ ih =>
    obtain ⟨l, c, ts, rfl, h1, h2, h3⟩ := he
    obtain ⟨w, hw, hw'⟩ := numbers_one c _ h2
    rw [List.flatten_cons, List.cons_append, List.cons_append] at hn ⊢
    cases n with
    | zero => simp at hn
    | succ n =>
      unfold Numbers at h1
      unfold wsLoop
      simp only [h1, hw, hw', Option.bind_eq_bind, Option.bind_some, Int.toNat_natCast, intLines_eq _ _ h3, add_sub_cancel_right]
      rw [ih n (by simp only [List.length_cons, List.length_append] at hn; omega)]
      rfl

theorem dict_at (es : List Entry) {n : Nat} (S : Vec → Fin n → Fin n → List Vec) (Rs : List Vec) (h : Complete Rs es S) (R : Vec) (hR : R ∈ Rs)
    (a b : Fin n) :
    dict es (fun _ => none) (R, ((a : Nat) : Int), ((b : Nat) : Int)) = some ((S R a b).map fun T => [T.1, T.2.1, T.2.2]) := by
  have key : ∀ (es : List Entry) (d : Key → Option (List (List Int))), (∀ e ∈ es, ∀ a b : Fin n, e.a = a → e.b = b → e.T = S e.R a b) →
      ((∃ e ∈ es, e.R = R ∧ e.a = a ∧ e.b = b) ∨ d (R, ((a : Nat) : Int), ((b : Nat) : Int)) = some ((S R a b).map fun T => [T.1, T.2.1, T.2.2])) →
      dict es d (R, ((a : Nat) : Int), ((b : Nat) : Int)) = some ((S R a b).map fun T => [T.1, T.2.1, T.2.2]) := by
    intro es
    induction es with
    | nil =>
      intro d _ h
      rcases h with ⟨e, he, -⟩ | h
      · exact absurd he (by simp)
      · exact h
    | cons e es ih =>
      intro d h1 h2
      rw [dict, List.foldl_cons]
      apply ih _ fun e he => h1 e (by simp [he])
      by_cases he : e.R = R ∧ e.a = a ∧ e.b = b
      · right
        obtain ⟨rfl, e2, e3⟩ := he
        rw [e2, e3, if_pos rfl, h1 e (by simp) a b e2 e3]
      · rcases h2 with ⟨e', he', h2⟩ | h2
        · rcases List.mem_cons.1 he' with rfl | he'
          · exact absurd h2 he
          · exact Or.inl ⟨e', he', h2⟩
        · right
          rw [if_neg, h2]
          intro h'
          simp only [Prod.mk.injEq, Nat.cast_inj] at h'
          exact he ⟨h'.1.symm, h'.2.1.symm, h'.2.2.symm⟩
  exact key es _ h.1 (Or.inl (h.2 R hR a b))

/-! ### Distribution -/

theorem phase_add (k : ℝ × ℝ × ℝ) (R T : Vec) : phase k (R + T) = phase k R * phase k T := by
  unfold phase
  rw [← Complex.exp_add]
  congr 1
  simp only [Prod.fst_add, Prod.snd_add]
  push_cast
  ring

theorem bloch_addTo {n : Nat} (R : Vec) (a b : Fin n) (t : ℂ) (c : List (Vec × Mat n)) (k : ℝ × ℝ × ℝ) (x y : Fin n) :
    bloch (addTo R a b t c) k x y = bloch c k x y + if x = a ∧ y = b then t * phase k R else 0 := by
  induction c with
  | nil =>
    simp only [addTo, bloch, List.map_cons, List.map_nil, List.sum_cons, List.sum_nil]
    split <;> simp
  | cons p c ih =>
    obtain ⟨R', M⟩ := p
    rw [addTo]
    split
    · rename_i h
      subst h
      simp only [bloch, List.map_cons, List.sum_cons]
      split <;> ring
    · simp only [bloch, List.map_cons, List.sum_cons] at ih ⊢
      rw [ih]
      ring

theorem keys_addTo {n : Nat} (R : Vec) (a b : Fin n) (t : ℂ) (c : List (Vec × Mat n)) (h : (c.map (·.1)).Nodup) :
    ((addTo R a b t c).map (·.1)).Nodup ∧ ∀ R', R' ∈ (addTo R a b t c).map (·.1) ↔ R' = R ∨ R' ∈ c.map (·.1) := by
  induction c with
  | nil => simp [addTo]
  | cons p c ih =>
    obtain ⟨R', M⟩ := p
    rw [List.map_cons, List.nodup_cons] at h
    obtain ⟨h1, h2⟩ := ih h.2
    rw [addTo]
    split
    · rename_i e
      subst e
      refine ⟨by rw [List.map_cons, List.nodup_cons]; exact h, fun R'' => ?_⟩
      simp
    · rename_i e
      refine ⟨?_, fun R'' => ?_⟩
      · rw [List.map_cons, List.nodup_cons]
        refine ⟨fun hm => ?_, h1⟩
        rcases (h2 _).1 hm with hm | hm
        · exact e hm
        · exact h.1 hm
      · rw [List.map_cons, List.mem_cons, h2, List.map_cons, List.mem_cons]
        tauto

theorem mapM_three (Ts : List Vec) : (Ts.map fun T : Vec => [T.1, T.2.1, T.2.2]).mapM three = some Ts := by
  induction Ts with
  | nil => rfl
  | cons T Ts ih => rw [List.map_cons, List.mapM_cons, ih]; rfl

theorem bloch_adds {n : Nat} (R : Vec) (a b : Fin n) (t : ℂ) (Ts : List Vec) (c : List (Vec × Mat n)) (hc : (c.map (·.1)).Nodup) :
    ((Ts.foldl (fun c T => addTo (R + T) a b t c) c).map (·.1)).Nodup ∧ ∀ (k : ℝ × ℝ × ℝ) (x y : Fin n),
      bloch (Ts.foldl (fun c T => addTo (R + T) a b t c) c) k x y =
        bloch c k x y + if x = a ∧ y = b then t * (Ts.map fun T => phase k (R + T)).sum else 0 := by
  induction Ts generalizing c with
  | nil => exact ⟨hc, fun k x y => by simp⟩
  | cons T Ts ih =>
    rw [List.foldl_cons]
    obtain ⟨h1, h2⟩ := ih _ (keys_addTo (R + T) a b t c hc).1
    refine ⟨h1, fun k x y => ?_⟩
    rw [h2, bloch_addTo, List.map_cons, List.sum_cons]
    split <;> ring

/-- A loop that always succeeds and adds contributions. -/
theorem foldlM_add {n : Nat} {α : Type} (f : List (Vec × Mat n) → α → Option (List (Vec × Mat n))) (g : α → ℝ × ℝ × ℝ → Fin n → Fin n → ℂ) (l : List α)
    (h : ∀ i ∈ l, ∀ c, (c.map (·.1)).Nodup → ∃ c', f c i = some c' ∧ (c'.map (·.1)).Nodup ∧ ∀ k x y, bloch c' k x y = bloch c k x y + g i k x y)
    (c : List (Vec × Mat n)) (hc : (c.map (·.1)).Nodup) :
    ∃ c', l.foldlM f c = some c' ∧ (c'.map (·.1)).Nodup ∧ ∀ k x y, bloch c' k x y = bloch c k x y + (l.map fun i => g i k x y).sum := by
  induction l generalizing c with
  | nil => exact ⟨c, rfl, hc, fun k x y => by simp⟩
  | cons i l ih =>
    obtain ⟨c1, h1, h2, h3⟩ := h i (by simp) c hc
    obtain ⟨c2, h4, h5, h6⟩ := ih (fun i hi => h i (by simp [hi])) c1 h2
    refine ⟨c2, by rw [List.foldlM_cons, h1]; exact h4, h5, fun k x y => ?_⟩
    rw [h6, h3, List.map_cons, List.sum_cons, add_assoc]

theorem sum_finRange {n : Nat} (x : Fin n) (v : Fin n → ℂ) : ((List.finRange n).map fun a => if x = a then v a else 0).sum = v x := by
  rw [← Fin.sum_univ_def]
  simp

theorem distribute_eq {n : Nat} (sup : Key → Option (List (List Int))) (S : Vec → Fin n → Fin n → List Vec) (hr : List (Vec × Mat n))
    (h : ∀ p ∈ hr, ∀ a b : Fin n, sup (p.1, ((a : Nat) : Int), ((b : Nat) : Int)) = some ((S p.1 a b).map fun T => [T.1, T.2.1, T.2.2])) :
    ∃ c, distribute sup hr = some c ∧ (c.map (·.1)).Nodup ∧ ∀ k x y, bloch c k x y =
      (hr.map fun p => p.2 x y / (S p.1 x y).length * ((S p.1 x y).map fun T => phase k (p.1 + T)).sum).sum := by
  obtain ⟨c, h1, h2, h3⟩ := foldlM_add (fun const (p : Vec × Mat n) => (List.finRange n).foldlM (fun const a => (List.finRange n).foldlM
      (fun const b => spread sup p const a b) const) const)
    (fun p k x y => p.2 x y / (S p.1 x y).length * ((S p.1 x y).map fun T => phase k (p.1 + T)).sum) hr (fun p hp c hc => by
      obtain ⟨c1, g1, g2, g3⟩ := foldlM_add (fun const a => (List.finRange n).foldlM (fun const b => spread sup p const a b) const)
        (fun a k x y => if x = a then p.2 a y / (S p.1 a y).length * ((S p.1 a y).map fun T => phase k (p.1 + T)).sum else 0) (List.finRange n)
        (fun a _ c hc => by
          obtain ⟨c2, f1, f2, f3⟩ := foldlM_add (fun const b => spread sup p const a b)
            (fun b k x y => if x = a ∧ y = b then p.2 a b / (S p.1 a b).length * ((S p.1 a b).map fun T => phase k (p.1 + T)).sum else 0)
            (List.finRange n) (fun b _ c hc => by
              refine ⟨_, ?_, (bloch_adds p.1 a b (p.2 a b / (S p.1 a b).length) (S p.1 a b) c hc).1, (bloch_adds p.1 a b _ (S p.1 a b) c hc).2⟩
              unfold spread
              rw [h p hp]
              simp only [Option.bind_eq_bind, Option.bind_some, mapM_three, List.length_map]) c hc
          refine ⟨c2, f1, f2, fun k x y => ?_⟩
          rw [f3]
          congr 1
          by_cases hx : x = a
          · simp only [hx, true_and, if_true]
            exact sum_finRange y fun b => p.2 a b / (S p.1 a b).length * ((S p.1 a b).map fun T => phase k (p.1 + T)).sum
          · simp [hx]) c hc
      refine ⟨c1, g1, g2, fun k x y => ?_⟩
      rw [g3]
      congr 1
      exact sum_finRange x fun a => p.2 a y / (S p.1 a y).length * ((S p.1 a y).map fun T => phase k (p.1 + T)).sum) [] (by simp)
  refine ⟨c, h1, h2, fun k x y => ?_⟩
  rw [h3]
  simp [bloch]

/-! ### Theorems -/

/-- Data in the chosen unit. -/
noncomputable def converted {n : Nat} (Ry : ℝ) (rydberg : Bool) (hr : List (Vec × Mat n)) : List (Vec × Mat n) :=
  hr.map fun p => (p.1, fun a b => p.2 a b * (if rydberg then ((Ry⁻¹ : ℝ) : ℂ) else 1))

theorem converted_eq {n : Nat} (Ry : ℝ) (rydberg : Bool) (hr : List (Vec × Mat n)) :
    (if rydberg then hr.map fun p => (p.1, fun a b => p.2 a b / (Ry : ℂ)) else hr) = converted Ry rydberg hr := by
  unfold converted
  cases rydberg with
  | true => simp [div_eq_mul_inv]
  | false => simp

/-- **C138**: Each matrix element is distributed evenly over the lattice vectors for which the distance between the Wannier functions is
minimal, as listed in the *_wsvec.dat* file (in any order); lattice vectors are unique. -/
theorem C138_distances {n : Nat} (Ry : ℝ) (hr : List (Vec × Mat n)) (file : List Str) (es : List Entry) (S : Vec → Fin n → Fin n → List Vec)
    (hfile : Describes file es) (hes : Complete (hr.map (·.1)) es S) (rydberg : Bool) :
    ∃ data nk, init Ry hr (some file) true rydberg = some (data, nk) ∧ (data.map (·.1)).Nodup ∧ ∀ k x y, bloch data k x y =
      ((converted Ry rydberg hr).map fun p => p.2 x y / (S p.1 x y).length * ((S p.1 x y).map fun T => phase k (p.1 + T)).sum).sum := by
  obtain ⟨head, parts, rfl, hp⟩ := hfile
  have hkeys : (converted Ry rydberg hr).map (·.1) = hr.map (·.1) := by
    unfold converted
    rw [List.map_map]
    rfl
  obtain ⟨c, h1, h2, h3⟩ := distribute_eq (dict es fun _ => none) S (converted Ry rydberg hr) (fun p hp a b =>
    dict_at es S _ hes p.1 (by rw [← hkeys]; exact List.mem_map_of_mem hp) a b)
  refine ⟨c, guessNk ((converted Ry rydberg hr).map (·.1)), ?_, h2, h3⟩
  unfold init
  rw [converted_eq, readWsvec, wsLoop_eq es parts hp _ (le_refl _)]
  simp only [Option.map_some, Option.bind_eq_bind, Option.bind_some, h1]

theorem phase_super (N : Nat × Nat × Nat) (q : ℤ × ℤ × ℤ) (hN : N.1 ≠ 0 ∧ N.2.1 ≠ 0 ∧ N.2.2 ≠ 0) (z : Vec) :
    phase (2 * Real.pi * q.1 / N.1, 2 * Real.pi * q.2.1 / N.2.1, 2 * Real.pi * q.2.2 / N.2.2) (N.1 * z.1, N.2.1 * z.2.1, N.2.2 * z.2.2) = 1 := by
  unfold phase
  rw [Complex.exp_eq_one_iff]
  refine ⟨q.1 * z.1 + q.2.1 * z.2.1 + q.2.2 * z.2.2, ?_⟩
  have h1 : (N.1 : ℂ) ≠ 0 := Nat.cast_ne_zero.2 hN.1
  have h2 : (N.2.1 : ℂ) ≠ 0 := Nat.cast_ne_zero.2 hN.2.1
  have h3 : (N.2.2 : ℂ) ≠ 0 := Nat.cast_ne_zero.2 hN.2.2
  push_cast
  field_simp

/-- **C138**: On the k mesh of the Wannier90 calculation, the Hamiltonian is the same as without this correction. -/
theorem C138_mesh {n : Nat} (Ry : ℝ) (hr : List (Vec × Mat n)) (file : List Str) (es : List Entry) (S : Vec → Fin n → Fin n → List Vec)
    (hfile : Describes file es) (hes : Complete (hr.map (·.1)) es S) (rydberg : Bool) (N : Nat × Nat × Nat) (hN : N.1 ≠ 0 ∧ N.2.1 ≠ 0 ∧ N.2.2 ≠ 0)
    (hS : ∀ R a b, S R a b ≠ []) (hT : ∀ R a b, ∀ T ∈ S R a b, ∃ z : Vec, T = (N.1 * z.1, N.2.1 * z.2.1, N.2.2 * z.2.2)) (q : ℤ × ℤ × ℤ) (x y : Fin n) :
    ∃ data nk data' nk', init Ry hr (some file) true rydberg = some (data, nk) ∧ init Ry hr none true rydberg = some (data', nk') ∧
      bloch data (2 * Real.pi * q.1 / N.1, 2 * Real.pi * q.2.1 / N.2.1, 2 * Real.pi * q.2.2 / N.2.2) x y =
      bloch data' (2 * Real.pi * q.1 / N.1, 2 * Real.pi * q.2.1 / N.2.1, 2 * Real.pi * q.2.2 / N.2.2) x y := by
  obtain ⟨data, nk, h1, -, h2⟩ := C138_distances Ry hr file es S hfile hes rydberg
  refine ⟨data, nk, converted Ry rydberg hr, guessNk ((converted Ry rydberg hr).map (·.1)), h1, ?_, ?_⟩
  · unfold init
    rw [converted_eq]
    rfl
  · rw [h2, bloch]
    congr 1
    apply List.map_congr_left
    intro p _
    have e1 : (S p.1 x y).map (fun T => phase (2 * Real.pi * q.1 / N.1, 2 * Real.pi * q.2.1 / N.2.1, 2 * Real.pi * q.2.2 / N.2.2) (p.1 + T)) =
        (S p.1 x y).map fun _ => phase (2 * Real.pi * q.1 / N.1, 2 * Real.pi * q.2.1 / N.2.1, 2 * Real.pi * q.2.2 / N.2.2) p.1 := by
      apply List.map_congr_left
      intro T hT'
      obtain ⟨z, rfl⟩ := hT p.1 x y T hT'
      rw [phase_add, phase_super N q hN, mul_one]
    have e2 : ((S p.1 x y).length : ℂ) ≠ 0 := by
      rw [Nat.cast_ne_zero]
      exact fun h => hS p.1 x y (List.length_eq_zero_iff.1 h)
    rw [e1, List.map_const', List.sum_replicate, nsmul_eq_mul]
    field_simp

theorem conj_phase (k : ℝ × ℝ × ℝ) (R : Vec) : star (phase k R) = phase k (-R) := by
  unfold phase
  rw [Complex.star_def, ← Complex.exp_conj]
  congr 1
  simp only [map_mul, Complex.conj_I, Complex.conj_ofReal, Prod.fst_neg, Prod.snd_neg]
  push_cast
  ring

theorem star_sum {α : Type} (l : List α) (f : α → ℂ) : star (l.map f).sum = (l.map fun i => star (f i)).sum := by
  induction l with
  | nil => simp
  | cons a l ih => rw [List.map_cons, List.sum_cons, star_add, ih, List.map_cons, List.sum_cons]

/-- **C138**: The Hamiltonian is Hermitian at all k points if the matrix elements and the lists of vectors have the corresponding symmetry. -/
theorem C138_hermitian {n : Nat} (Ry : ℝ) (hr : List (Vec × Mat n)) (file : List Str) (es : List Entry) (S : Vec → Fin n → Fin n → List Vec)
    (hfile : Describes file es) (hes : Complete (hr.map (·.1)) es S) (rydberg : Bool)
    (hh : (hr.map fun p => ((-p.1, fun a b => star (p.2 b a)) : Vec × Mat n)).Perm hr)
    (hS : ∀ R a b, ((S R a b).map fun T => -T).Perm (S (-R) b a)) (k : ℝ × ℝ × ℝ) (x y : Fin n) :
    ∃ data nk, init Ry hr (some file) true rydberg = some (data, nk) ∧ star (bloch data k x y) = bloch data k y x := by
  obtain ⟨data, nk, h1, -, h2⟩ := C138_distances Ry hr file es S hfile hes rydberg
  refine ⟨data, nk, h1, ?_⟩
  have hh' : ((converted Ry rydberg hr).map fun p => ((-p.1, fun a b => star (p.2 b a)) : Vec × Mat n)).Perm (converted Ry rydberg hr) := by
    have := hh.map fun p : Vec × Mat n => ((p.1, fun a b => p.2 a b * (if rydberg then ((Ry⁻¹ : ℝ) : ℂ) else 1)) : Vec × Mat n)
    unfold converted
    rw [List.map_map] at this ⊢
    refine List.Perm.trans (List.Perm.of_eq ?_) this
    apply List.map_congr_left
    intro p _
    simp only [Function.comp]
    congr 1
    funext a b
    cases rydberg <;> simp
  rw [h2, h2, star_sum]
  have := (hh'.map fun p : Vec × Mat n => p.2 y x / (S p.1 y x).length * ((S p.1 y x).map fun T => phase k (p.1 + T)).sum).sum_eq
  rw [← this, List.map_map]
  congr 1
  apply List.map_congr_left
  intro p _
  simp only [Function.comp]
  have e1 : (S (-p.1) y x).length = (S p.1 x y).length := by rw [← (hS p.1 x y).length_eq, List.length_map]
  have e2 : ((S (-p.1) y x).map fun T => phase k (-p.1 + T)).sum = ((S p.1 x y).map fun T => star (phase k (p.1 + T))).sum := by
    rw [← ((hS p.1 x y).map fun T => phase k (-p.1 + T)).sum_eq, List.map_map]
    congr 1
    apply List.map_congr_left
    intro T _
    simp only [Function.comp, conj_phase]
    congr 1
    rw [neg_add]
  rw [e1, e2, star_mul', star_div₀, star_sum]
  simp

/-! ### Mesh -/

theorem foldl_max (l : List Vec) (m M : Int) (hm : m ≤ M) (h : ∀ v ∈ l, v.1 ≤ M ∧ v.2.1 ≤ M ∧ v.2.2 ≤ M)
    (hM : m = M ∨ ∃ v ∈ l, v.1 = M ∨ v.2.1 = M ∨ v.2.2 = M) : l.foldl (fun m v => max (max (max m v.1) v.2.1) v.2.2) m = M := by
  induction l generalizing m with
  | nil =>
    rcases hM with hM | ⟨v, hv, -⟩
    · exact hM
    · exact absurd hv (by simp)
  | cons v l ih =>
    rw [List.foldl_cons]
    have hv := h v (by simp)
    apply ih _ (by omega) fun v hv => h v (by simp [hv])
    rcases hM with hM | ⟨w, hw, hw'⟩
    · left
      omega
    · rcases List.mem_cons.1 hw with rfl | hw
      · left
        omega
      · exact Or.inr ⟨w, hw, hw'⟩

/-- Lattice vectors of the Wigner-Seitz cell along the first direction, for a mesh of `N` points: those with `|R| ≤ N / 2`. -/
def Axis (R : List Vec) (N : Nat) : Prop := ∀ z : Int, ((z, 0, 0) : Vec) ∈ R ↔ 2 * z ≤ N ∧ -2 * z ≤ N

/-- **C138**: The shape of the k mesh is guessed correctly along directions with an even number of points. -/
theorem C138_nk_partial (R : List Vec) (N : Nat) (hN : 0 < N) (h : Axis R N) : (guessNk R).1 = if N % 2 = 0 then (N : Int) else if N = 1 then 2 else N - 1 := by
  have hz : ∀ M : Int, 1 ≤ M → (∀ z : Int, ((z, 0, 0) : Vec) ∈ R → z ≤ M) → (M = 1 ∨ ((M, 0, 0) : Vec) ∈ R) → (guessNk R).1 = 2 * M := by
    intro M h1 h2 h3
    unfold guessNk guess
    simp only
    rw [foldl_max _ 1 M h1]
    · intro v hv
      simp only [List.mem_filter, decide_eq_true_eq, Bool.decide_and, Bool.and_eq_true] at hv
      obtain ⟨v1, v2, v3⟩ := v
      obtain ⟨hv, rfl, rfl⟩ := hv
      exact ⟨h2 v1 hv, by show (0 : Int) ≤ M; omega, by show (0 : Int) ≤ M; omega⟩
    · rcases h3 with h3 | h3
      · exact Or.inl h3.symm
      · exact Or.inr ⟨(M, 0, 0), by simp [h3], Or.inl rfl⟩
  by_cases he : N % 2 = 0
  · rw [if_pos he, hz (N / 2 : Nat) (by omega) (fun z hz => by have := ((h z).1 hz).1; omega) (Or.inr ((h _).2 ⟨by omega, by omega⟩))]
    omega
  · rw [if_neg he]
    by_cases h1 : N = 1
    · rw [if_pos h1, hz 1 (by omega) (fun z hz => by have := ((h z).1 hz).1; omega) (Or.inl rfl)]
      rfl
    · rw [if_neg h1, hz (N / 2 : Nat) (by omega) (fun z hz => by have := ((h z).1 hz).1; omega) (Or.inr ((h _).2 ⟨by omega, by omega⟩))]
      omega

/-- **C138** (violation): The guess is wrong for any odd number of points. -/
theorem C138_nk_violated (R : List Vec) (N : Nat) (hN : N % 2 = 1) (h : Axis R N) : (guessNk R).1 ≠ N := by
  rw [C138_nk_partial R N (by omega) h, if_neg (by omega)]
  split
  · omega
  · omega

/-! ### Files from RESPACK -/

/-- **C138**: Data for lattice vectors is assigned to equivalent points of the mesh. -/
theorem C138_respack {α : Type} (N : Vec) (hN : 0 < N.1 ∧ 0 < N.2.1 ∧ 0 < N.2.2) (zero : α) (data : List (Vec × α))
    (hd : ∀ p ∈ data, ∀ p' ∈ data, (∃ z : Vec, p'.1 = (p.1.1 + N.1 * z.1, p.1.2.1 + N.2.1 * z.2.1, p.1.2.2 + N.2.2 * z.2.2)) → p'.2 = p.2) :
    ∃ t, fill N zero data = some t ∧ ∀ p ∈ data, ∀ i j k : Nat, (i : Int) < N.1 → (j : Int) < N.2.1 → (k : Int) < N.2.2 →
      (∃ z : Vec, p.1 = (i + N.1 * z.1, j + N.2.1 * z.2.1, k + N.2.2 * z.2.2)) → t (i, j, k) = p.2 := by
  have step : ∀ (l : List (Vec × α)) (t0 : Nat × Nat × Nat → α), ∃ t, l.foldlM (fun t p => do
      let i ← wrap N.1 p.1.1
      let j ← wrap N.2.1 p.1.2.1
      let k ← wrap N.2.2 p.1.2.2
      some fun ijk => if ijk = (i, j, k) then p.2 else t ijk) t0 = some t ∧ ∀ ijk, (t ijk = t0 ijk ∧
        ∀ p ∈ l, ijk ≠ ((p.1.1 % N.1).toNat, (p.1.2.1 % N.2.1).toNat, (p.1.2.2 % N.2.2).toNat)) ∨
        ∃ p ∈ l, ijk = ((p.1.1 % N.1).toNat, (p.1.2.1 % N.2.1).toNat, (p.1.2.2 % N.2.2).toNat) ∧ t ijk = p.2 := by
    intro l
    induction l with
    | nil => exact fun t0 => ⟨t0, rfl, fun ijk => Or.inl ⟨rfl, fun p hp => absurd hp (by simp)⟩⟩
    | cons p l ih =>
      intro t0
      obtain ⟨t, h1, h2⟩ := ih fun ijk => if ijk = ((p.1.1 % N.1).toNat, (p.1.2.1 % N.2.1).toNat, (p.1.2.2 % N.2.2).toNat) then p.2 else t0 ijk
      refine ⟨t, ?_, fun ijk => ?_⟩
      · rw [List.foldlM_cons]
        simp only [wrap, if_pos hN.1, if_pos hN.2.1, if_pos hN.2.2, Option.bind_eq_bind, Option.bind_some] at h1 ⊢
        exact h1
      · rcases h2 ijk with ⟨h3, h4⟩ | ⟨p', h3, h4⟩
        · by_cases he : ijk = ((p.1.1 % N.1).toNat, (p.1.2.1 % N.2.1).toNat, (p.1.2.2 % N.2.2).toNat)
          · right
            exact ⟨p, by simp, he, by rw [h3, if_pos he]⟩
          · left
            refine ⟨by rw [h3, if_neg he], fun p' hp' => ?_⟩
            rcases List.mem_cons.1 hp' with rfl | hp'
            · exact he
            · exact h4 p' hp'
        · right
          exact ⟨p', by simp [h3], h4⟩
  obtain ⟨t, h1, h2⟩ := step data fun _ => zero
  refine ⟨t, h1, fun p hp i j k hi hj hk hz => ?_⟩
  have idx : ∀ (n a : Int) (i : Nat), 0 < n → (i : Int) < n → (∃ z, a = i + n * z) → (a % n).toNat = i := by
    rintro n a i hn hi ⟨z, rfl⟩
    rw [Int.add_mul_emod_self_left, Int.emod_eq_of_lt (by omega) hi]
    rfl
  obtain ⟨z, hz⟩ := hz
  have hz1 : p.1.1 = i + N.1 * z.1 := congrArg (·.1) hz
  have hz2 : p.1.2.1 = j + N.2.1 * z.2.1 := congrArg (·.2.1) hz
  have hz3 : p.1.2.2 = k + N.2.2 * z.2.2 := congrArg (·.2.2) hz
  have e : (i, j, k) = ((p.1.1 % N.1).toNat, (p.1.2.1 % N.2.1).toNat, (p.1.2.2 % N.2.2).toNat) := by
    rw [idx _ _ i hN.1 hi ⟨_, hz1⟩, idx _ _ j hN.2.1 hj ⟨_, hz2⟩, idx _ _ k hN.2.2 hk ⟨_, hz3⟩]
  rcases h2 (i, j, k) with ⟨-, h3⟩ | ⟨p', hp', h3, h4⟩
  · exact absurd e (h3 p hp)
  · rw [h4]
    apply hd p hp p' hp'
    have back : ∀ n a b : Int, 0 < n → (a % n).toNat = (b % n).toNat → ∃ z, b = a + n * z := by
      intro n a b hn h
      have g1 := Int.emod_nonneg a (by omega : n ≠ 0)
      have g2 := Int.emod_nonneg b (by omega : n ≠ 0)
      have g3 : a % n = b % n := by omega
      refine ⟨b / n - a / n, ?_⟩
      have g4 := Int.emod_add_mul_ediv a n
      have g5 := Int.emod_add_mul_ediv b n
      rw [mul_sub]
      linarith
    rw [e] at h3
    simp only [Prod.mk.injEq] at h3
    obtain ⟨z1, k1⟩ := back _ _ _ hN.1 h3.1
    obtain ⟨z2, k2⟩ := back _ _ _ hN.2.1 h3.2.1
    obtain ⟨z3, k3⟩ := back _ _ _ hN.2.2 h3.2.2
    exact ⟨(z1, z2, z3), by rw [Prod.ext_iff, Prod.ext_iff]; exact ⟨k1, k2, k3⟩⟩

/-- **C138** (violation): With the default mesh, data that belongs to a single k point along a direction cannot be read. -/
theorem C138_respack_violated {α : Type} (zero : α) (data : List (Vec × α)) (N : Vec) (hN : defaultN (data.map (·.1)) = some N)
    (h : ∀ p ∈ data, p.1.2.2 = 0) : fill N zero data = none := by
  have h3 : N.2.2 = 0 := by
    unfold defaultN at hN
    obtain ⟨R, hR, rfl⟩ := Option.map_eq_some_iff.1 hN
    have := List.mem_of_getLast? hR
    obtain ⟨p, hp, rfl⟩ := List.mem_map.1 this
    show 2 * p.1.2.2 = 0
    rw [h p hp]
    rfl
  cases data with
  | nil => exact absurd hN (by simp [defaultN])
  | cons p data =>
    unfold fill
    rw [List.foldlM_cons]
    have : wrap N.2.2 p.1.2.2 = none := by rw [wrap, if_neg (by omega)]
    rw [this]
    cases wrap N.1 p.1.1 with
    | none => rfl
    | some i => cases wrap N.2.1 p.1.2.1 <;> rfl

/-! ### Example -/

/-- A chain with two k points. -/
def exampleFile : List Str :=
  ["## written on 16Nov2026 at 12:00:00 with use_ws_distance=.true.\n".toList,
    "   -1    0    0    1    1\n".toList, "    2\n".toList, "    0    0    0\n".toList, "    2    0    0\n".toList,
    "    0    0    0    1    1\n".toList, "    1\n".toList, "    0    0    0\n".toList,
    "    1    0    0    1    1\n".toList, "    2\n".toList, "   -2    0    0\n".toList, "    0    0    0\n".toList]

def exampleEntries : List Entry :=
  [⟨(-1, 0, 0), 0, 0, [(0, 0, 0), (2, 0, 0)]⟩, ⟨(0, 0, 0), 0, 0, [(0, 0, 0)]⟩, ⟨(1, 0, 0), 0, 0, [(-2, 0, 0), (0, 0, 0)]⟩]

def exampleS (R : Vec) (_ _ : Fin 1) : List Vec :=
  if R = (-1, 0, 0) then [(0, 0, 0), (2, 0, 0)] else if R = (1, 0, 0) then [(-2, 0, 0), (0, 0, 0)] else [(0, 0, 0)]

instance (l : Str) (v : List Int) : Decidable (Numbers l v) := by unfold Numbers; infer_instance

theorem example_describes : Describes exampleFile exampleEntries := by
  refine ⟨_, [(exampleFile.drop 1).take 4, (exampleFile.drop 5).take 3, exampleFile.drop 8], rfl, ?_⟩
  refine List.Forall₂.cons ⟨_, _, _, rfl, by decide +kernel, by decide +kernel, ?_⟩ (List.Forall₂.cons ⟨_, _, _, rfl, by decide +kernel,
    by decide +kernel, ?_⟩ (List.Forall₂.cons ⟨_, _, _, rfl, by decide +kernel, by decide +kernel, ?_⟩ List.Forall₂.nil))
  · exact List.Forall₂.cons (by decide +kernel) (List.Forall₂.cons (by decide +kernel) List.Forall₂.nil)
  · exact List.Forall₂.cons (by decide +kernel) List.Forall₂.nil
  · exact List.Forall₂.cons (by decide +kernel) (List.Forall₂.cons (by decide +kernel) List.Forall₂.nil)

noncomputable def exampleHr : List (Vec × Mat 1) := [((-1, 0, 0), fun _ _ => 1 / 2), ((0, 0, 0), fun _ _ => 3), ((1, 0, 0), fun _ _ => 1 / 2)]

theorem example_complete : Complete (exampleHr.map (·.1)) exampleEntries exampleS := by
  refine ⟨fun e he a b _ _ => ?_, fun R hR a b => ?_⟩
  · simp only [exampleEntries, List.mem_cons, List.not_mem_nil, or_false] at he
    rcases he with rfl | rfl | rfl <;> simp [exampleS]
  · have ha : (a : Nat) = 0 := by omega
    have hb : (b : Nat) = 0 := by omega
    simp only [exampleHr, List.map_cons, List.map_nil, List.mem_cons, List.not_mem_nil, or_false] at hR
    rw [ha, hb]
    rcases hR with rfl | rfl | rfl
    · exact ⟨⟨(-1, 0, 0), 0, 0, [(0, 0, 0), (2, 0, 0)]⟩, by simp [exampleEntries], rfl, rfl, rfl⟩
    · exact ⟨⟨(0, 0, 0), 0, 0, [(0, 0, 0)]⟩, by simp [exampleEntries], rfl, rfl, rfl⟩
    · exact ⟨⟨(1, 0, 0), 0, 0, [(-2, 0, 0), (0, 0, 0)]⟩, by simp [exampleEntries], rfl, rfl, rfl⟩

/-- Hypotheses of `C138_mesh` (and `C138_distances`). -/
example (q : ℤ × ℤ × ℤ) : ∃ data nk data' nk', init 13.6 exampleHr (some exampleFile) true true = some (data, nk) ∧
    init 13.6 exampleHr none true true = some (data', nk') ∧
      bloch data (2 * Real.pi * q.1 / 2, 2 * Real.pi * q.2.1 / 1, 2 * Real.pi * q.2.2 / 1) 0 0 =
      bloch data' (2 * Real.pi * q.1 / 2, 2 * Real.pi * q.2.1 / 1, 2 * Real.pi * q.2.2 / 1) 0 0 := by
  have := C138_mesh 13.6 exampleHr exampleFile exampleEntries exampleS example_describes example_complete true (2, 1, 1) (by norm_num)
    (fun R a b => by unfold exampleS; split_ifs <;> simp) (fun R a b T hT => by
      unfold exampleS at hT
      split_ifs at hT
      · simp only [List.mem_cons, List.not_mem_nil, or_false] at hT
        rcases hT with rfl | rfl
        · exact ⟨(0, 0, 0), by simp⟩
        · exact ⟨(1, 0, 0), by simp⟩
      · simp only [List.mem_cons, List.not_mem_nil, or_false] at hT
        rcases hT with rfl | rfl
        · exact ⟨(-1, 0, 0), by simp⟩
        · exact ⟨(0, 0, 0), by simp⟩
      · simp only [List.mem_cons, List.not_mem_nil, or_false] at hT
        exact ⟨(0, 0, 0), by simp [hT]⟩) q 0 0
  simpa using this

/-- Hypotheses of `C138_hermitian`. -/
example (k : ℝ × ℝ × ℝ) : ∃ data nk, init 13.6 exampleHr (some exampleFile) true false = some (data, nk) ∧ star (bloch data k 0 0) = bloch data k 0 0 :=
  C138_hermitian 13.6 exampleHr exampleFile exampleEntries exampleS example_describes example_complete false (by
    simp only [exampleHr, List.map_cons, List.map_nil]
    norm_num
    exact (List.Perm.swap _ _ _).trans ((List.Perm.cons _ (List.Perm.swap _ _ _)).trans (List.Perm.swap _ _ _))) (fun R a b => by
    unfold exampleS
    by_cases h1 : R = (-1, 0, 0)
    · subst h1
      simp
      exact List.Perm.swap _ _ _
    · by_cases h2 : R = (1, 0, 0)
      · subst h2
        simp
        exact List.Perm.swap _ _ _
      · have h3 : -R ≠ (-1, 0, 0) := fun h => h2 (by rw [← neg_neg R, h]; rfl)
        have h4 : -R ≠ (1, 0, 0) := fun h => h1 (by rw [← neg_neg R, h]; rfl)
        rw [if_neg h1, if_neg h2, if_neg h3, if_neg h4]
        exact List.Perm.refl _) k 0 0

/-- Hypotheses of `C138_nk_partial` and `C138_nk_violated`: even and odd. -/
example : Axis [(-1, 0, 0), (0, 0, 0), (1, 0, 0), (0, 1, 0)] 2 ∧ Axis [(-1, 0, 0), (0, 0, 0), (1, 0, 0), (0, 1, 0)] 3 := by
  constructor <;> intro z <;> simp <;> omega

/-- Hypotheses of `C138_respack`. -/
example : ∃ t, fill (2, 2, 1) 0 [((-1, 0, 0), 5), ((0, 0, 0), 7), ((1, 0, 0), 5)] = some t ∧ t (1, 0, 0) = 5 := by
  obtain ⟨t, h1, h2⟩ := C138_respack (2, 2, 1) (by norm_num) 0 [((-1, 0, 0), 5), ((0, 0, 0), 7), ((1, 0, 0), 5)] (by
    rintro p hp p' hp' ⟨z, hz⟩
    simp only [List.mem_cons, List.not_mem_nil, or_false] at hp hp'
    rcases hp with rfl | rfl | rfl <;> rcases hp' with rfl | rfl | rfl <;> simp at hz ⊢ <;> omega)
  exact ⟨t, h1, h2 ((1, 0, 0), 5) (by simp) 1 0 0 (by norm_num) (by norm_num) (by norm_num) ⟨(0, 0, 0), by simp⟩⟩

/-- Hypotheses of `C138_respack_violated`. -/
example : fill (2, 2, 0) 0 [((0, 0, 0), 7), ((1, 1, 0), 5)] = none :=
  C138_respack_violated 0 [((0, 0, 0), 7), ((1, 1, 0), 5)] (2, 2, 0) rfl (by simp)

end Verif.ElInit
