import Verif.ElPh.Props

/-!
# C170: electron-phonon coupling after `clear`
-/

namespace Verif.ElPh

open Verif.Lattice (V3)
open Verif.Fourier (phase)

variable {X O : Type}

/-! ### Model -/

/-- Attributes of the object; the index of the origin is a number, which may be outdated. -/
structure Raw (X O : Type) where
  c : Coupling X O
  lr : Option ((Fin 3 → ℝ) → X → ℂ)
  Rk0 : Option Nat
  q : Option (Fin 3 → ℝ)
  gq : X → Fin c.nk → O → O → ℂ

/-- The attributes if the index is valid. -/
def State.raw (s : State X O) : Raw X O := ⟨s.c, s.lr, s.Rk0.map fun r => r.1, s.q, s.gq⟩

/-- `elphmod/elph.py` 751-761 (`clear`): arrays without elements, other attributes remain. (Models of electrons and phonons are cleared, too.) -/
def Raw.clear (s : Raw X O) : Raw X O where
  c := ⟨0, 0, Fin.elim0, Fin.elim0, fun i => Fin.elim0 i⟩
  lr := s.lr
  Rk0 := s.Rk0
  q := s.q
  gq := fun _ i => Fin.elim0 i

/-- `self.gq[:, self.Rk0, a, a]`, `elphmod/elph.py` 148-149: `none` for `IndexError`. The case of no index (`np.newaxis`) is also `none`; it is an
`IndexError` if there are no elements, and meaningless otherwise. -/
def Raw.origin (s : Raw X O) : Option (Fin s.c.nk) := s.Rk0.bind fun r => if h : r < s.c.nk then some ⟨r, h⟩ else none

open Classical in
/-- `elphmod/elph.py` 128-149: the array `gq` after an update, if needed. `none` for an exception. -/
noncomputable def Raw.refresh [DecidableEq O] (s : Raw X O) (q : Fin 3 → ℝ) : Option (X → Fin s.c.nk → O → O → ℂ) :=
  if s.q = none ∨ s.q ≠ some q then
    match s.lr with
    | none => some fun x r a b => ∑ R, s.c.data R x r a b * phase (s.c.Rg R) q
    | some f => s.origin.map fun r0 => fun x r a b => (∑ R, s.c.data R x r a b * phase (s.c.Rg R) q) + if r = r0 ∧ a = b then f q x else 0
  else some s.gq

/-- `elphmod/elph.py` 90-197 (`g`) in the basis of orbitals and displacements, result only. -/
noncomputable def Raw.g [DecidableEq O] (s : Raw X O) (q k : Fin 3 → ℝ) : Option (X → O → O → ℂ) :=
  (s.refresh q).map fun gq x a b => ∑ R, gq x R a b * phase (s.c.Rk R) k

/-! ### Results -/

section
variable [DecidableEq O]

/-- With a valid index, this is the coupling of `C47`. -/
theorem raw_g (s : State X O) (ho : Origin s) (q k : Fin 3 → ℝ) : s.raw.g q k = some (g s q k).2 := by
  unfold Raw.g Raw.refresh g refresh
  by_cases h : s.q = none ∨ s.q ≠ some q
  · have h' : s.raw.q = none ∨ s.raw.q ≠ some q := h
    rw [if_pos h']
    simp only [if_pos h]
    unfold calcGq
    cases hl : s.lr with
    | none =>
      have : s.raw.lr = none := hl
      rw [this]
      simp only [Option.map_some, add_zero]
      rfl
    | some f =>
      have : s.raw.lr = some f := hl
      rw [this]
      obtain ⟨r, hr, -⟩ := ho (by rw [hl]; exact Option.some_ne_none f)
      have h1 : s.raw.origin = some r := by
        unfold Raw.origin State.raw
        rw [hr]
        simp
      simp only [h1, Option.map_some, hr, Option.some.injEq]
      refine congrArg some ?_
      funext x a b
      refine Finset.sum_congr rfl fun (R : Fin s.c.nk) _ => ?_
      have e : ∀ P Q : Prop, (P ↔ Q) → ∀ (i : Decidable P) (j : Decidable Q), @ite ℂ P i (f q x) 0 = @ite ℂ Q j (f q x) 0 := by
        intro P Q h i j
        by_cases hP : P
        · rw [if_pos hP, if_pos (h.1 hP)]
        · rw [if_neg hP, if_neg fun hQ => hP (h.2 hQ)]
      exact congrArg (fun z => ((∑ R', s.c.data R' x R a b * phase (s.c.Rg R') q) + z) * phase (s.c.Rk R) k) (e _ _ (and_congr_left' eq_comm) _ _)
  · have h' : ¬ (s.raw.q = none ∨ s.raw.q ≠ some q) := h
    rw [if_neg h']
    simp only [if_neg h]
    rfl

/-- C170: without long-range terms, the coupling vanishes after `clear`. -/
theorem C170_coupling_partial (s : Raw X O) (h : s.lr = none) (q k : Fin 3 → ℝ) : s.clear.g q k = some fun _ _ _ => 0 := by
  unfold Raw.g Raw.refresh
  have : s.clear.lr = none := h
  rw [this]
  by_cases hq : s.clear.q = none ∨ s.clear.q ≠ some q
  · rw [if_pos hq]
    simp only [Option.map_some]
    exact congrArg some (funext fun x => funext fun a => funext fun b => Finset.sum_of_isEmpty (ι := Fin 0) _)
  · rw [if_neg hq]
    exact congrArg some (funext fun x => funext fun a => funext fun b => Finset.sum_of_isEmpty (ι := Fin 0) _)

/-- C170: with long-range terms, which are supposed to remain, the coupling cannot be calculated after `clear`, with the exception of the wave vector of the
last calculation, for which the result is zero. -/
theorem C170_coupling_violated (s : Raw X O) (f : (Fin 3 → ℝ) → X → ℂ) (h : s.lr = some f) (q k : Fin 3 → ℝ) :
    s.clear.g q k = if s.q = some q then some fun _ _ _ => 0 else none := by
  unfold Raw.g Raw.refresh
  have : s.clear.lr = some f := h
  rw [this]
  by_cases hq : s.q = some q
  · have h' : ¬ (s.clear.q = none ∨ s.clear.q ≠ some q) := by
      have : s.clear.q = some q := hq
      simp [this]
    rw [if_neg h', if_pos hq]
    exact congrArg some (funext fun x => funext fun a => funext fun b => Finset.sum_of_isEmpty (ι := Fin 0) _)
  · have h' : s.clear.q = none ∨ s.clear.q ≠ some q := Or.inr hq
    rw [if_pos h', if_neg hq]
    have : s.clear.origin = none := by
      unfold Raw.origin
      cases s.clear.Rk0 with
      | none => rfl
      | some r =>
        rw [Option.bind_some, dif_neg]
        exact Nat.not_lt_zero r
    simp only [this, Option.map_none]

/-- C170: `standardize` after `clear` works and leaves the long-range terms only. -/
theorem C170_standardize_coupling (s : State X O) (sym : Bool) (junk : (n : Nat) → X → Fin n → O → O → ℂ) :
    ∃ c' : Coupling X O, standardize sym s.raw.clear.c = some c' ∧
      ∀ q k, (g ⟨c', s.lr, vectorIndex c'.Rk (0, 0, 0), none, junk c'.nk⟩ q k).2 = fun x a b => match s.lr with
        | none => 0
        | some f => if a = b then f q x else 0 := by
  have hp : pairs s.raw.clear.c = [] := rfl
  have hd : stdDict sym s.raw.clear.c = [(((0, 0, 0), (0, 0, 0)), fun _ _ _ => 0)] := by
    unfold stdDict
    rw [hp]
    rfl
  have hS : sortedSet [(0, 0, 0)] = [(0, 0, 0)] := by
    unfold sortedSet
    simp
  refine ⟨toArrays sym (stdDict sym s.raw.clear.c) [(0, 0, 0)] [(0, 0, 0)], ?_, fun q k => ?_⟩
  · unfold standardize
    simp only [hd, List.map_cons, List.map_nil, hS]
    exact if_pos (Or.inr trivial)
  · set c' := toArrays sym (stdDict sym s.raw.clear.c) [(0, 0, 0)] [(0, 0, 0)] with hc
    have h0 : vectorIndex c'.Rk (0, 0, 0) = some ⟨0, Nat.one_pos⟩ := by
      show vectorIndex (n := 1) (fun i => [((0 : Int), (0 : Int), (0 : Int))][i]) (0, 0, 0) = some ⟨0, Nat.one_pos⟩
      decide +kernel
    have hg := g_result (⟨c', s.lr, vectorIndex c'.Rk (0, 0, 0), none, junk c'.nk⟩ : State X O)
      (fun _ => ⟨⟨0, Nat.one_pos⟩, h0, rfl⟩) q k (Or.inl (by simp))
    rw [hg]
    funext x a b
    unfold total
    have hf : fourier c' q k x a b = 0 := by
      unfold fourier
      refine Finset.sum_eq_zero fun i _ => Finset.sum_eq_zero fun j _ => ?_
      have : c'.data i x j a b = 0 := by
        have hz : ∀ R, lookup ([(((0, 0, 0), (0, 0, 0)), fun _ _ _ => 0)] : Dict X O) R x a b = 0 := by
          intro R
          unfold lookup
          rw [List.find?_cons]
          cases decide ((((0, 0, 0), (0, 0, 0)) : V3 × V3) = R) <;> rfl
        show (if sym then lookup (stdDict sym s.raw.clear.c) _ x a b / 2 else lookup (stdDict sym s.raw.clear.c) _ x a b) = 0
        rw [hd, hz]
        simp
      rw [this, zero_mul, zero_mul]
    simp only [hf, zero_add]
    cases s.lr <;> rfl

end

/-! ### Example -/

/-- A model with constant coupling and long-range terms, used for the origin before. -/
noncomputable def polar1 : Raw (Fin 3) (Fin 1) where
  c := ⟨1, 1, fun _ => (0, 0, 0), fun _ => (0, 0, 0), fun _ _ _ _ _ => 1⟩
  lr := some fun q x => (q x : ℂ)
  Rk0 := some 0
  q := some 0
  gq := fun _ _ _ _ => 1

example : polar1.clear.g (fun _ => 1) 0 = none ∧ polar1.clear.g 0 0 = some fun _ _ _ => 0 := by
  rw [C170_coupling_violated polar1 _ rfl, C170_coupling_violated polar1 _ rfl]
  constructor
  · rw [if_neg]
    intro h
    have := congrFun (Option.some.inj h) 0
    simp at this
  · rw [if_pos (show polar1.q = some 0 from rfl)]

/-- Hypotheses of `C170_coupling_partial`: the same without long-range terms. -/
example := C170_coupling_partial { polar1 with lr := none } rfl (fun _ => 1) 0

/-- `C170_standardize_coupling` for the same model. -/
example := C170_standardize_coupling (X := Fin 3) (O := Fin 1) ⟨polar1.c, polar1.lr, some ⟨0, Nat.one_pos⟩, some 0, polar1.gq⟩ true fun _ _ _ _ _ => 5

end Verif.ElPh
