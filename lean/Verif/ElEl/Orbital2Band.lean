import Verif.MPI.Props
import Verif.Misc.Lemmas
import Mathlib.Data.Complex.BigOperators
import Mathlib.Data.Nat.ModEq
import Mathlib.Tactic.LinearCombination

/-!
# Model of `elel.orbital2band` (C59)

The eigenvectors `psi` and the list of irreducible q points are inputs. The table of indices is stored as bytes.
-/

namespace Verif.ElEl

open Verif.MPI (parMap C02_parMap)

/-- One row of the table `points`, `elphmod/elel.py` 489-490. -/
structure Point where
  /-- fields in the order of the columns -/
  (q1 q2 k1 k2 K1 K2 kq1 kq2 Kq1 Kq2 : Nat)

/-- Conversion to `np.uint8`: modulo 256 for NumPy 1 (`wrap`), otherwise an `OverflowError` if out of bounds. -/
def uint8 (wrap : Bool) (n : Nat) : Option Nat := if wrap then some (n % 256) else if n < 256 then some n else none

/-- Assignment of a row to the array of type `np.uint8`. -/
def store (wrap : Bool) (p : Point) : Option Point := do
  return ⟨← uint8 wrap p.q1, ← uint8 wrap p.q2, ← uint8 wrap p.k1, ← uint8 wrap p.k2, ← uint8 wrap p.K1, ← uint8 wrap p.K2,
    ← uint8 wrap p.kq1, ← uint8 wrap p.kq2, ← uint8 wrap p.Kq1, ← uint8 wrap p.Kq2⟩

/-- `elphmod/elel.py` 465-492: all rows of the table before the conversion. -/
def points (nq nqC nk : Nat) (Q : List (Nat × Nat)) : List Point :=
  Q.flatMap fun q =>
    let Q1 := q.1 * nk / nq
    let Q2 := q.2 * nk / nq
    let q1 := q.1 * (nqC / nq)
    let q2 := q.2 * (nqC / nq)
    (List.range nk).flatMap fun k1 => (List.range nk).flatMap fun k2 => (List.range nk).flatMap fun K1 =>
      (List.range nk).map fun K2 =>
        ⟨q1, q2, k1, k2, K1, K2, (k1 + Q1) % nk, (k2 + Q2) % nk, (K1 + Q1) % nk, (K2 + Q2) % nk⟩

variable {no : Nat}

/-- `elphmod/elel.py` 514-537: one element of the interaction in the band basis. -/
def value (U : Nat → Nat → Fin no → Fin no → Fin no → Fin no → ℂ) (psi : Nat → Nat → Fin no → ℂ) (dd : Bool) (p : Point) : ℂ :=
  if dd then
    ∑ a, ∑ b, U p.q1 p.q2 a a b b * star (psi p.Kq1 p.Kq2 b) * star (psi p.k1 p.k2 a) * psi p.kq1 p.kq2 a * psi p.K1 p.K2 b
  else
    ∑ a, ∑ b, ∑ c, ∑ d, U p.q1 p.q2 a b c d * star (psi p.Kq1 p.Kq2 d) * star (psi p.k1 p.k2 b) * psi p.kq1 p.kq2 a *
      psi p.K1 p.K2 c

/-- `elphmod/elel.py` 435-556 (`orbital2band`) on a given number of processes. Outer `none`: exception, inner `none`: no
result because the meshes do not match. -/
def orbital2band (wrap : Bool) (ranks nq nqC nk : Nat) (Q : List (Nat × Nat))
    (U : Nat → Nat → Fin no → Fin no → Fin no → Fin no → ℂ) (psi : Nat → Nat → Fin no → ℂ) (dd : Bool) :
    Option (Option (List ℂ)) :=
  if nqC % nq ≠ 0 then some none
  else do
    let table ← (points nq nqC nk Q).mapM (store wrap)
    let V ← parMap ranks (value U psi dd) table
    return some V

/-! ### Table -/

theorem getElem?_flatMap_list {α β : Type} (m : Nat) (f : α → List β) (h : ∀ x, (f x).length = m) :
    ∀ (l : List α) (i j : Nat) (hi : i < l.length), j < m → (l.flatMap f)[i * m + j]? = (f l[i])[j]? := by
  intro l
  induction l with
  | nil => intro i j hi; simp at hi
  | cons x l ih =>
    intro i j hi hj
    rw [List.flatMap_cons]
    cases i with
    | zero => rw [List.getElem?_append_left (by rw [h]; omega)]; simp
    | succ i =>
      rw [List.getElem?_append_right (by rw [h, Nat.succ_mul]; omega), h,
        show (i + 1) * m + j - m = i * m + j by rw [Nat.succ_mul]; omega, ih i j (by simpa using hi) hj]
      rfl

open Verif.Misc in
/-- Rows are found at the positions that correspond to the dimensions of the result. -/
theorem points_get (nq nqC nk : Nat) (Q : List (Nat × Nat)) (iq k1 k2 K1 K2 : Nat) (hq : iq < Q.length) (h1 : k1 < nk)
    (h2 : k2 < nk) (h3 : K1 < nk) (h4 : K2 < nk) :
    (points nq nqC nk Q)[(((iq * nk + k1) * nk + k2) * nk + K1) * nk + K2]? =
      some ⟨Q[iq].1 * (nqC / nq), Q[iq].2 * (nqC / nq), k1, k2, K1, K2, (k1 + Q[iq].1 * nk / nq) % nk,
        (k2 + Q[iq].2 * nk / nq) % nk, (K1 + Q[iq].1 * nk / nq) % nk, (K2 + Q[iq].2 * nk / nq) % nk⟩ := by
  have e : (((iq * nk + k1) * nk + k2) * nk + K1) * nk + K2 =
      iq * (nk * (nk * (nk * nk))) + (k1 * (nk * (nk * nk)) + (k2 * (nk * nk) + (K1 * nk + K2))) := by ring
  have l1 : ∀ a b, a < nk → b < nk → a * nk + b < nk * nk := fun a b ha hb => by
    calc a * nk + b < (a + 1) * nk := by rw [Nat.succ_mul]; omega
      _ ≤ nk * nk := Nat.mul_le_mul_right _ ha
  have l2 : ∀ a b, a < nk → b < nk * nk → a * (nk * nk) + b < nk * (nk * nk) := fun a b ha hb => by
    calc a * (nk * nk) + b < (a + 1) * (nk * nk) := by rw [Nat.succ_mul]; omega
      _ ≤ nk * (nk * nk) := Nat.mul_le_mul_right _ ha
  have l3 : ∀ a b, a < nk → b < nk * (nk * nk) → a * (nk * (nk * nk)) + b < nk * (nk * (nk * nk)) := fun a b ha hb => by
    calc a * (nk * (nk * nk)) + b < (a + 1) * (nk * (nk * nk)) := by rw [Nat.succ_mul]; omega
      _ ≤ nk * (nk * (nk * nk)) := Nat.mul_le_mul_right _ ha
  unfold points
  have len1 : ∀ (f : Nat → Point), ((List.range nk).map f).length = nk := fun f => by simp
  rw [e, getElem?_flatMap_list (nk * (nk * (nk * nk))) _ (fun q => by
      refine length_flatMap_range _ _ _ fun k1 => length_flatMap_range _ _ _ fun k2 => length_flatMap_range _ _ _ fun K1 => len1 _)
    Q iq _ hq (l3 _ _ h1 (l2 _ _ h2 (l1 _ _ h3 h4)))]
  simp only
  rw [getElem?_flatMap_range nk (nk * (nk * nk)) _ (fun k1 => length_flatMap_range _ _ _ fun k2 =>
      length_flatMap_range _ _ _ fun K1 => len1 _) k1 _ h1 (l2 _ _ h2 (l1 _ _ h3 h4)),
    getElem?_flatMap_range nk (nk * nk) _ (fun k2 => length_flatMap_range _ _ _ fun K1 => len1 _) k2 _ h2 (l1 _ _ h3 h4),
    getElem?_flatMap_range nk nk _ (fun K1 => len1 _) K1 _ h3 h4]
  rw [List.getElem?_map, List.getElem?_range h4]
  rfl

open Verif.Misc in
theorem points_length (nq nqC nk : Nat) (Q : List (Nat × Nat)) : (points nq nqC nk Q).length = Q.length * nk ^ 4 := by
  unfold points
  have len1 : ∀ (f : Nat → Point), ((List.range nk).map f).length = nk := fun f => by simp
  have : ∀ q ∈ Q, ((List.range nk).flatMap fun k1 => (List.range nk).flatMap fun k2 => (List.range nk).flatMap fun K1 =>
      (List.range nk).map fun K2 => (⟨q.1 * (nqC / nq), q.2 * (nqC / nq), k1, k2, K1, K2, (k1 + q.1 * nk / nq) % nk,
        (k2 + q.2 * nk / nq) % nk, (K1 + q.1 * nk / nq) % nk, (K2 + q.2 * nk / nq) % nk⟩ : Point)).length =
        nk * (nk * (nk * nk)) := fun q _ =>
    length_flatMap_range _ _ _ fun k1 => length_flatMap_range _ _ _ fun k2 => length_flatMap_range _ _ _ fun K1 => len1 _
  rw [List.length_flatMap, List.map_congr_left this, List.map_const', List.sum_replicate, smul_eq_mul]
  ring

/-- All indices fit into a byte. -/
theorem store_small (wrap : Bool) (p : Point) (h : p.q1 < 256 ∧ p.q2 < 256 ∧ p.k1 < 256 ∧ p.k2 < 256 ∧ p.K1 < 256 ∧ p.K2 < 256 ∧
    p.kq1 < 256 ∧ p.kq2 < 256 ∧ p.Kq1 < 256 ∧ p.Kq2 < 256) : store wrap p = some p := by
  have hu : ∀ n, n < 256 → uint8 wrap n = some n := fun n hn => by
    unfold uint8
    split
    · rw [Nat.mod_eq_of_lt hn]
    · rfl
  obtain ⟨h1, h2, h3, h4, h5, h6, h7, h8, h9, h10⟩ := h
  unfold store
  rw [hu _ h1, hu _ h2, hu _ h3, hu _ h4, hu _ h5, hu _ h6, hu _ h7, hu _ h8, hu _ h9, hu _ h10]
  rfl

theorem mapM_id {α : Type} (f : α → Option α) : ∀ l : List α, (∀ x ∈ l, f x = some x) → l.mapM f = some l
  | [], _ => rfl
  | x :: l, h => by
    rw [List.mapM_cons, h x (by simp), mapM_id f l fun y hy => h y (by simp [hy])]
    rfl

theorem points_small (nq nqC nk : Nat) (hn : 0 < nq) (hd : nq ∣ nqC) (hk : nk ≤ 256) (hC : nqC ≤ 256) (Q : List (Nat × Nat))
    (hQ : ∀ q ∈ Q, q.1 < nq ∧ q.2 < nq) (wrap : Bool) : ∀ p ∈ points nq nqC nk Q, store wrap p = some p := by
  intro p hp
  simp only [points, List.mem_flatMap, List.mem_map, List.mem_range] at hp
  obtain ⟨q, hq, k1, h1, k2, h2, K1, h3, K2, h4, rfl⟩ := hp
  obtain ⟨c, rfl⟩ := hd
  obtain ⟨hq1, hq2⟩ := hQ q hq
  have hpos : 0 < nk := by omega
  have hb : ∀ n, n < nq → n * (nq * c / nq) < 256 := fun n hn' => by
    rw [Nat.mul_div_cancel_left _ hn]
    rcases Nat.eq_zero_or_pos c with rfl | hc
    · simp
    · exact lt_of_lt_of_le ((Nat.mul_lt_mul_right hc).2 hn') hC
  have hm : ∀ n, n % nk < 256 := fun n => lt_of_lt_of_le (Nat.mod_lt _ hpos) hk
  exact store_small wrap _ ⟨hb _ hq1, hb _ hq2, h1.trans_le hk, h2.trans_le hk, h3.trans_le hk, h4.trans_le hk, hm _, hm _, hm _, hm _⟩

/-! ### C59 -/

/-- The index of `k / nk + q / nq` on the mesh of `nk` points, up to reciprocal lattice vectors. -/
def IsSum (nk nq k q kq : Nat) : Prop := kq < nk ∧ kq * nq ≡ k * nq + q * nk [MOD nk * nq]

theorem sum_unique {nk nq k q kq : Nat} (hn : 0 < nq) (hd : nq ∣ nk) (h : IsSum nk nq k q kq) :
    (k + q * nk / nq) % nk = kq := by
  obtain ⟨c, rfl⟩ := hd
  obtain ⟨h1, h2⟩ := h
  have e : q * (nq * c) / nq = q * c := by
    rw [show q * (nq * c) = nq * (q * c) by ring, Nat.mul_div_cancel_left _ hn]
  rw [e]
  have h3 : kq * nq ≡ (k + q * c) * nq [MOD (nq * c) * nq] := by
    rw [show (k + q * c) * nq = k * nq + q * (nq * c) by ring]
    exact h2
  have h4 : kq ≡ k + q * c [MOD nq * c] := Nat.ModEq.mul_right_cancel' (by omega) h3
  rw [← h4, Nat.mod_eq_of_lt h1]

/-- C59 (missing: meshes with more than 256 points per dimension, see `C59_violated`): the interaction in the band basis
refers to the intended wave vectors, on any number of processes. The mesh of q points is assumed to be a subset of the
mesh of k points. -/
theorem C59_partial (wrap : Bool) (ranks nq nqC nk : Nat) (hr : 0 < ranks) (hn : 0 < nq) (hd : nq ∣ nqC) (hdk : nq ∣ nk)
    (hk : nk ≤ 256) (hC : nqC ≤ 256) (Q : List (Nat × Nat)) (hQ : ∀ q ∈ Q, q.1 < nq ∧ q.2 < nq)
    (U : Nat → Nat → Fin no → Fin no → Fin no → Fin no → ℂ) (psi : Nat → Nat → Fin no → ℂ) :
    ∃ V, orbital2band wrap ranks nq nqC nk Q U psi false = some (some V) ∧ V.length = Q.length * nk ^ 4 ∧
      ∀ (iq k1 k2 K1 K2 : Nat) (hq : iq < Q.length), k1 < nk → k2 < nk → K1 < nk → K2 < nk →
      ∀ kq1 kq2 Kq1 Kq2 Q1 Q2, IsSum nk nq k1 Q[iq].1 kq1 → IsSum nk nq k2 Q[iq].2 kq2 → IsSum nk nq K1 Q[iq].1 Kq1 →
        IsSum nk nq K2 Q[iq].2 Kq2 → IsSum nqC nq 0 Q[iq].1 Q1 → IsSum nqC nq 0 Q[iq].2 Q2 →
        V[(((iq * nk + k1) * nk + k2) * nk + K1) * nk + K2]? =
          some (∑ a, ∑ b, ∑ c, ∑ d, U Q1 Q2 a b c d * star (psi Kq1 Kq2 d) * star (psi k1 k2 b) * psi kq1 kq2 a *
            psi K1 K2 c) := by
  refine ⟨(points nq nqC nk Q).map (value U psi false), ?_, ?_, ?_⟩
  · unfold orbital2band
    rw [if_neg (by simp [Nat.mod_eq_zero_of_dvd hd]), mapM_id _ _ (points_small nq nqC nk hn hd hk hC Q hQ wrap)]
    simp only [Option.bind_eq_bind, Option.bind_some, C02_parMap ranks hr]
    rfl
  · rw [List.length_map, points_length]
  · intro iq k1 k2 K1 K2 hq h1 h2 h3 h4 kq1 kq2 Kq1 Kq2 Q1 Q2 s1 s2 s3 s4 s5 s6
    rw [List.getElem?_map, points_get nq nqC nk Q iq k1 k2 K1 K2 hq h1 h2 h3 h4, sum_unique hn hdk s1, sum_unique hn hdk s2,
      sum_unique hn hdk s3, sum_unique hn hdk s4]
    have hQ' : ∀ {q Q1}, IsSum nqC nq 0 q Q1 → q < nq → q * (nqC / nq) = Q1 := fun {q Q1} s hlt => by
      have h := sum_unique hn hd s
      obtain ⟨c, rfl⟩ := hd
      rw [Nat.mul_div_cancel_left _ hn]
      rw [zero_add, show q * (nq * c) = nq * (q * c) by ring, Nat.mul_div_cancel_left _ hn] at h
      rcases Nat.eq_zero_or_pos c with rfl | hc
      · have := s.1
        omega
      · rw [← h, Nat.mod_eq_of_lt ((Nat.mul_lt_mul_right hc).2 hlt)]
    have hm := hQ Q[iq] (List.getElem_mem hq)
    rw [hQ' s5 hm.1, hQ' s6 hm.2]
    simp [value]

/-- C59: if the interaction has density-density terms only, then considering only these (`dd`) does not change the result. -/
theorem C59_dd (wrap : Bool) (ranks nq nqC nk : Nat) (Q : List (Nat × Nat))
    (U : Nat → Nat → Fin no → Fin no → Fin no → Fin no → ℂ) (psi : Nat → Nat → Fin no → ℂ)
    (h : ∀ q1 q2 a b c d, ¬ (a = b ∧ c = d) → U q1 q2 a b c d = 0) :
    orbital2band wrap ranks nq nqC nk Q U psi true = orbital2band wrap ranks nq nqC nk Q U psi false := by
  have : value U psi true = value U psi false := by
    funext p
    simp only [value, if_true, Bool.false_eq_true, if_false]
    refine Finset.sum_congr rfl fun a _ => ?_
    refine Eq.symm ((Finset.sum_eq_single a ?_ ?_).trans ?_)
    rotate_left 2
    · refine Finset.sum_congr rfl fun c _ => (Finset.sum_eq_single c ?_ ?_)
      · intro d _ hd
        rw [h _ _ _ _ _ _ (fun h => hd h.2.symm)]
        ring
      · simp
    · intro b _ hb
      refine Finset.sum_eq_zero fun c _ => Finset.sum_eq_zero fun d _ => ?_
      rw [h _ _ _ _ _ _ (fun h => hb h.1.symm)]
      ring
    · simp
  unfold orbital2band
  rw [this]

/-- With bytes modulo 256, rows of the table exist for all mesh points. -/
theorem mapM_wrap (l : List Point) : ∃ l', l.mapM (store true) = some l' ∧ l'.length = l.length ∧
    ∀ (i : Nat) (p : Point), l[i]? = some p → l'[i]? = store true p := by
  have hs : ∀ p, ∃ p', store true p = some p' := fun p => by simp [store, uint8]
  induction l with
  | nil => exact ⟨[], rfl, rfl, by simp⟩
  | cons p l ih =>
    obtain ⟨l', h1, h2, h3⟩ := ih
    obtain ⟨p', hp⟩ := hs p
    refine ⟨p' :: l', ?_, by simp [h2], ?_⟩
    · rw [List.mapM_cons, hp, h1]
      rfl
    · intro i r hr
      cases i with
      | zero =>
        simp only [List.getElem?_cons_zero, Option.some.injEq] at hr ⊢
        rw [← hr, hp]
      | succ i => exact h3 i r (by simpa using hr)

theorem mapM_none {α β : Type} (f : α → Option β) : ∀ (l : List α) (x : α), x ∈ l → f x = none → l.mapM f = none
  | y :: l, x, hx, h => by
    rw [List.mapM_cons]
    rcases List.mem_cons.1 hx with rfl | hx
    · rw [h]
      rfl
    · cases hy : f y with
      | none => rfl
      | some z =>
        rw [mapM_none f l x hx h]
        rfl

/-- Two orbitals, one of which is occupied at the last point of the mesh and the other elsewhere. -/
def lastPoint (_ k2 : Nat) (a : Fin 2) : ℂ := if (k2 = 256) = (a = 1) then 1 else 0

/-- Interaction of the first orbital with itself only. -/
def onlyFirst (_ _ : Nat) (a b c d : Fin 2) : ℂ := if a = 0 ∧ b = 0 ∧ c = 0 ∧ d = 0 then 1 else 0

/-- C59 does not hold in general: with 257 k points per dimension, the last point is confused with the first one or an
exception is raised, depending on the version of NumPy. -/
theorem C59_violated : (∃ V, orbital2band true 1 1 1 257 [(0, 0)] onlyFirst lastPoint false = some (some V) ∧
      V[256]? = some 1 ∧ (∑ a, ∑ b, ∑ c, ∑ d, onlyFirst 0 0 a b c d * star (lastPoint 0 256 d) * star (lastPoint 0 0 b) *
        lastPoint 0 0 a * lastPoint 0 256 c) = 0) ∧
    orbital2band false 1 1 1 257 [(0, 0)] onlyFirst lastPoint false = none := by
  have hp := points_get 1 1 257 [(0, 0)] 0 0 0 0 256 (by simp) (by norm_num) (by norm_num) (by norm_num) (by norm_num)
  rw [show (((0 * 257 + 0) * 257 + 0) * 257 + 0) * 257 + 256 = 256 from rfl] at hp
  simp only [List.getElem_cons_zero, Nat.zero_mul, Nat.zero_div, Nat.add_zero, Nat.zero_mod] at hp
  rw [show 256 % 257 = 256 from rfl] at hp
  refine ⟨?_, ?_⟩
  · obtain ⟨l', h1, h2, h3⟩ := mapM_wrap (points 1 1 257 [(0, 0)])
    refine ⟨l'.map (value onlyFirst lastPoint false), ?_, ?_, ?_⟩
    · unfold orbital2band
      rw [if_neg (by simp), h1]
      simp only [Option.bind_eq_bind, Option.bind_some, C02_parMap 1 Nat.one_pos]
      rfl
    · rw [List.getElem?_map, h3 256 _ hp]
      simp [store, uint8, value, lastPoint, onlyFirst]
    · simp [lastPoint, onlyFirst]
  · unfold orbital2band
    rw [if_neg (by simp), mapM_none _ _ _ (List.mem_of_getElem? hp) (by simp [store, uint8])]
    rfl

/-- The wave vectors of the vectors above have unit length; a mesh for which the result is correct. -/
example : (∀ k1 k2, ∑ a, star (lastPoint k1 k2 a) * lastPoint k1 k2 a = 1) ∧ IsSum 6 3 5 2 3 ∧ (3 : Nat) ∣ 6 := by
  refine ⟨fun k1 k2 => ?_, ⟨by norm_num, by decide⟩, by norm_num⟩
  by_cases h : k2 = 256 <;> simp [lastPoint, h]

end Verif.ElEl
