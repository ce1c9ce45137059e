import Verif.Mesh.Props

/-!
# Model of `elphmod/bravais.py`: `complete_k`; property C63
-/

namespace Verif.Mesh

/-- `elphmod/bravais.py` 616-622: all symmetries including the identity (`unity=True`) for data that
have every symmetry (`np.zeros`), each as map of mesh indices. -/
def symAll (angle : Angle) (nk : Int) : List (P → P) :=
  [false, true].flatMap fun reflect => (List.range (nrot angle)).map fun n =>
    symMap angle nk reflect n

/-- `elphmod/bravais.py` 672: `sorted(irreducibles(nq))`; tuples are sorted lexicographically, which is
the order of `meshPoints`. -/
def wedgePoints (nq : Nat) : List P :=
  (meshPoints nq).filter fun q => decide (q ∈ irreducibles nq .a60)

/-- State of the loops: set `done` and (possibly uninitialised) elements of `mesh`. -/
structure KState (K : Type) where
  done : Finset P
  mesh : P → P → Option K

/-- `elphmod/bravais.py` 694-698: loops over k points for fixed q point. -/
def kFill {K : Type} (nk : Nat) (symk : P → P) (w : P → K) (Q : P) (mesh : P → P → Option K) :
    P → P → Option K :=
  (meshPoints nk).foldl (fun d k => Function.update d Q (Function.update (d Q) (symk k) (some (w k)))) mesh

/-- `elphmod/bravais.py` 686-698: body of the loop over q points. -/
def kStep {K : Type} (nk : Nat) (symq symk : P → P) (s : KState K) (e : (P → K) × P) : KState K :=
  let Q := symq e.2
  if Q ∈ s.done then s
  else ⟨insert Q s.done, kFill nk symk e.1 Q s.mesh⟩

/-- `elphmod/bravais.py` 658-702 (`complete_k`). `wedge iq k` is the given value for the irreducible q
point number `iq`; `none` stands for elements of the result that are never set. -/
def completeK {K : Type} (nk nq : Nat) (wedge : Nat → P → K) : P → P → Option K :=
  (((symAll .a60 nq).zip (symAll .a60 nk)).foldl (fun s sym =>
    (((wedgePoints nq).zipIdx.map fun e => (wedge e.2, e.1)).foldl (kStep nk sym.1 sym.2) s))
    (⟨∅, fun _ _ => none⟩ : KState K)).mesh

/-! ## Lemmas -/

theorem symMap_act (angle : Angle) (reflect : Bool) (n : Nat) :
    ∃ A : Lin, A.Isometry angle ∧ ∀ (nk : Int) (k : P), symMap angle nk reflect n k = red nk (A.act k) := by
  cases reflect
  · exact ⟨rotPow angle n, isometry_rotPow angle n, fun nk k => by simp [symMap, act_rotPow]⟩
  · refine ⟨(reflL angle).mul (rotPow angle n), isometry_mul ?_ (isometry_rotPow angle n), ?_⟩
    · intro k
      obtain ⟨x, y⟩ := k
      cases angle <;> simp only [reflL, Lin.act, normSq] <;> ring
    · intro nk k
      simp [symMap, Lin.act_mul, act_rotPow, act_reflL]

theorem zip_symAll (angle : Angle) (nq nk : Int) :
    (symAll angle nq).zip (symAll angle nk) =
      [false, true].flatMap fun reflect => (List.range (nrot angle)).map fun n =>
        (symMap angle nq reflect n, symMap angle nk reflect n) := by
  simp only [symAll, List.flatMap_cons, List.flatMap_nil, List.append_nil]
  rw [List.zip_append (by simp), List.zip_map', List.zip_map']

theorem kFill_spec {K : Type} (F : P → P → K) (symk : P → P) (w : P → K) (Q : P) (ks : List P)
    (hw : ∀ k ∈ ks, w k = F Q (symk k)) (d : P → P → Option K) :
    let d' := ks.foldl (fun d k =>
      Function.update d Q (Function.update (d Q) (symk k) (some (w k)))) d
    (∀ Q', Q' ≠ Q → d' Q' = d Q') ∧
    (∀ k', (d Q k' = some (F Q k') ∨ ∃ k ∈ ks, symk k = k') → d' Q k' = some (F Q k')) := by
  induction ks generalizing d with
  | nil =>
    refine ⟨fun _ _ => rfl, ?_⟩
    rintro k' (h | ⟨k, hk, _⟩)
    · exact h
    · cases hk
  | cons k ks ih =>
    obtain ⟨h1, h2⟩ := ih (fun k' hk' => hw k' (List.mem_cons_of_mem _ hk'))
      (Function.update d Q (Function.update (d Q) (symk k) (some (w k))))
    refine ⟨?_, ?_⟩
    · intro Q' hQ'
      rw [List.foldl_cons, h1 Q' hQ', Function.update_of_ne hQ']
    · intro k' h
      rw [List.foldl_cons]
      apply h2
      simp only [Function.update_self]
      by_cases hk : symk k = k'
      · left
        rw [← hk, Function.update_self, hw k List.mem_cons_self]
      · rcases h with h | ⟨j, hj, he⟩
        · left
          rw [Function.update_of_ne (Ne.symm hk)]; exact h
        · right
          rcases List.mem_cons.1 hj with rfl | hj
          · exact absurd he hk
          · exact ⟨j, hj, he⟩

/-- Everything marked as done has the correct values. -/
def KInv {K : Type} (nk : Nat) (F : P → P → K) (s : KState K) : Prop :=
  ∀ Q ∈ s.done, ∀ k ∈ meshPoints nk, s.mesh Q k = some (F Q k)

theorem kStep_fold {K : Type} (nk : Nat) (F : P → P → K) (symq symk : P → P)
    (hsurj : ∀ k' ∈ meshPoints nk, ∃ k ∈ meshPoints nk, symk k = k') (es : List ((P → K) × P))
    (hes : ∀ e ∈ es, ∀ k ∈ meshPoints nk, e.1 k = F (symq e.2) (symk k)) (s : KState K)
    (hs : KInv nk F s) :
    KInv nk F (es.foldl (kStep nk symq symk) s) ∧
    (∀ Q ∈ s.done, Q ∈ (es.foldl (kStep nk symq symk) s).done) ∧
    (∀ e ∈ es, symq e.2 ∈ (es.foldl (kStep nk symq symk) s).done) := by
  induction es generalizing s with
  | nil => exact ⟨hs, fun _ h => h, fun _ h => by cases h⟩
  | cons e es ih =>
    have hstep : KInv nk F (kStep nk symq symk s e) := by
      unfold kStep
      simp only
      split
      · exact hs
      · next hQ =>
        obtain ⟨h1, h2⟩ := kFill_spec F symk e.1 (symq e.2) (meshPoints nk)
          (hes e List.mem_cons_self) s.mesh
        intro Q hQd k hk
        rcases Finset.mem_insert.1 hQd with rfl | hQd
        · exact h2 k (Or.inr (hsurj k hk))
        · have hne : Q ≠ symq e.2 := fun h => hQ (h ▸ hQd)
          have := h1 Q hne
          simp only [kFill]
          rw [this]
          exact hs Q hQd k hk
    have hmono : ∀ Q ∈ s.done, Q ∈ (kStep nk symq symk s e).done := by
      intro Q h
      unfold kStep
      simp only
      split
      · exact h
      · exact Finset.mem_insert_of_mem h
    have hnew : symq e.2 ∈ (kStep nk symq symk s e).done := by
      unfold kStep
      simp only
      split
      · assumption
      · exact Finset.mem_insert_self _ _
    obtain ⟨i1, i2, i3⟩ := ih (fun e' he' => hes e' (List.mem_cons_of_mem _ he')) _ hstep
    rw [List.foldl_cons]
    refine ⟨i1, fun Q h => i2 Q (hmono Q h), ?_⟩
    intro e' he'
    rcases List.mem_cons.1 he' with rfl | he'
    · exact i2 _ hnew
    · exact i3 e' he'

theorem syms_fold {K : Type} (nk : Nat) (F : P → P → K) (es : List ((P → K) × P))
    (syms : List ((P → P) × (P → P)))
    (hsurj : ∀ s ∈ syms, ∀ k' ∈ meshPoints nk, ∃ k ∈ meshPoints nk, s.2 k = k')
    (hes : ∀ s ∈ syms, ∀ e ∈ es, ∀ k ∈ meshPoints nk, e.1 k = F (s.1 e.2) (s.2 k)) (s : KState K)
    (hs : KInv nk F s) :
    let s' := syms.foldl (fun s sym => es.foldl (kStep nk sym.1 sym.2) s) s
    KInv nk F s' ∧ (∀ Q ∈ s.done, Q ∈ s'.done) ∧
    (∀ sym ∈ syms, ∀ e ∈ es, sym.1 e.2 ∈ s'.done) := by
  induction syms generalizing s with
  | nil => exact ⟨hs, fun _ h => h, fun _ h => by cases h⟩
  | cons sym syms ih =>
    obtain ⟨k1, k2, k3⟩ := kStep_fold nk F sym.1 sym.2 (hsurj sym List.mem_cons_self) es
      (hes sym List.mem_cons_self) s hs
    obtain ⟨i1, i2, i3⟩ := ih (fun s' h => hsurj s' (List.mem_cons_of_mem _ h))
      (fun s' h => hes s' (List.mem_cons_of_mem _ h)) _ k1
    simp only [List.foldl_cons]
    refine ⟨i1, fun Q h => i2 Q (k2 Q h), ?_⟩
    intro sym' hsym e he
    rcases List.mem_cons.1 hsym with rfl | hsym
    · exact i2 _ (k3 e he)
    · exact i3 sym' hsym e he

/-! ## C63 -/

/-- `F` has the symmetry of the triangular lattice: transforming the indices `q` (modulo `nq`) and `k`
(modulo `nk`) with the same rotation or reflection does not change the value. -/
def JointlySymmetric {K : Type} (nq nk : Nat) (F : P → P → K) : Prop :=
  ∀ A : Lin, A.Isometry .a60 → ∀ q q' k k' : P,
    (nq : Int) ∣ q'.1 - (A.act q).1 → (nq : Int) ∣ q'.2 - (A.act q).2 →
    (nk : Int) ∣ k'.1 - (A.act k).1 → (nk : Int) ∣ k'.2 - (A.act k).2 → F q' k' = F q k

/-- C63. If the given data are the values of a jointly symmetric function for the irreducible q points
(in sorted order) and all k points, then `complete_k` returns its values for all q and k points, and no
element of the returned array stays uninitialised. -/
theorem C63_complete_k {K : Type} (nk nq : Nat) (F : P → P → K) (hF : JointlySymmetric nq nk F)
    (wedge : Nat → P → K)
    (hw : ∀ iq q, (wedgePoints nq)[iq]? = some q → ∀ k, OnMesh nk k → wedge iq k = F q k)
    (q k : P) (hq : OnMesh nq q) (hk : OnMesh nk k) :
    completeK nk nq wedge q k = some (F q k) := by
  have hk' : k ∈ meshPoints nk := (mem_meshPoints nk k).2 hk
  have hnk : 0 < nk := by obtain ⟨h, _⟩ := hk; omega
  have dvd : ∀ (n : Int) (p : P), n ∣ (red n p).1 - p.1 ∧ n ∣ (red n p).2 - p.2 := fun n p =>
    ⟨Int.ModEq.dvd (Int.mod_modEq _ _).symm, Int.ModEq.dvd (Int.mod_modEq _ _).symm⟩
  have hsyms : ∀ s ∈ (symAll .a60 nq).zip (symAll .a60 nk), ∃ A : Lin, A.Isometry .a60 ∧
      (∀ x, s.1 x = red nq (A.act x)) ∧ (∀ x, s.2 x = red nk (A.act x)) := by
    intro s hs
    rw [zip_symAll] at hs
    simp only [List.mem_flatMap, List.mem_map] at hs
    obtain ⟨r, _, n, _, rfl⟩ := hs
    obtain ⟨A, hA, h⟩ := symMap_act .a60 r n
    exact ⟨A, hA, h nq, h nk⟩
  have key := syms_fold nk F ((wedgePoints nq).zipIdx.map fun e => (wedge e.2, e.1))
    ((symAll .a60 nq).zip (symAll .a60 nk)) ?_ ?_ ⟨∅, fun _ _ => none⟩ ?_
  · obtain ⟨i1, _, i3⟩ := key
    refine i1 q ?_ k hk'
    obtain ⟨p, ⟨hp, hqp⟩, _⟩ := C20_one_per_orbit nq .a60 q hq
    have hpm : p ∈ meshPoints nq :=
      (mem_meshPoints nq p).2 ((C20_irreducibles nq .a60 p).1 hp).1
    have hpw : p ∈ wedgePoints nq := by
      simp only [wedgePoints, List.mem_filter, decide_eq_true_eq]; exact ⟨hpm, hp⟩
    obtain ⟨iq, hiq, hget⟩ := List.getElem_of_mem hpw
    have hmem : (wedge iq, p) ∈ (wedgePoints nq).zipIdx.map fun e => (wedge e.2, e.1) := by
      refine List.mem_map.2 ⟨(p, iq), ?_, rfl⟩
      rw [List.mem_zipIdx_iff_getElem?]
      simp [hiq, hget]
    have hsym : ∃ s ∈ (symAll .a60 nq).zip (symAll .a60 nk), s.1 p = q := by
      have hcase : ∃ reflect n, n < nrot .a60 ∧ q = symMap .a60 nq reflect n p := by
        rcases images_symMaps .a60 nq p q hqp with h | ⟨g, hg, h⟩
        · exact ⟨false, 0, by decide, by rw [h]; simp [symMap]⟩
        · obtain ⟨r, n, hn, _, rfl⟩ := (mem_symMaps _ _ _).1 hg
          exact ⟨r, n, hn, h⟩
      obtain ⟨r, n, hn, h⟩ := hcase
      refine ⟨(symMap .a60 nq r n, symMap .a60 nk r n), ?_, h.symm⟩
      rw [zip_symAll]
      simp only [List.mem_flatMap, List.mem_map]
      exact ⟨r, by cases r <;> simp, n, List.mem_range.2 hn, rfl⟩
    obtain ⟨s, hs, rfl⟩ := hsym
    exact i3 s hs _ hmem
  · intro s hs k' hk'
    obtain ⟨A, hA, _, h2⟩ := hsyms s hs
    obtain ⟨B, hB, hBA⟩ := isometry_inv .a60 A hA
    obtain ⟨C, hC, hCB⟩ := isometry_inv .a60 B hB
    have hAB : ∀ x, A.act (B.act x) = x := by
      intro x
      have h1 := hCB (A.act (B.act x))
      rw [hBA, hCB] at h1
      exact h1.symm
    refine ⟨red nk (B.act k'), red_mem hnk _, ?_⟩
    rw [h2, red_act_red, hAB, red_of_mem hk']
  · intro s hs e he k hk
    obtain ⟨A, hA, h1, h2⟩ := hsyms s hs
    obtain ⟨⟨p, iq⟩, hmem, rfl⟩ := List.mem_map.1 he
    rw [List.mem_zipIdx_iff_getElem?] at hmem
    simp only [] at hmem ⊢
    rw [hw iq p hmem k ((mem_meshPoints nk k).1 hk), h1, h2]
    exact (hF A hA _ _ _ _ (dvd _ _).1 (dvd _ _).2 (dvd _ _).1 (dvd _ _).2).symm
  · intro Q hQ
    simp at hQ

/-- A jointly symmetric function that is not constant. -/
example : JointlySymmetric 2 2 fun q k => (images q 2 .a60).card + 3 * (images k 2 .a60).card := by
  intro A hA q q' k k' h1 h2 h3 h4
  have key : ∀ x x' : P, (2 : Int) ∣ x'.1 - (A.act x).1 → (2 : Int) ∣ x'.2 - (A.act x).2 →
      images x' 2 .a60 = images x 2 .a60 := by
    intro x x' a b
    have e : red 2 x' = red 2 (A.act x) := by
      simp only [red, Prod.mk.injEq]
      exact ⟨(Int.modEq_iff_dvd.2 a).symm, (Int.modEq_iff_dvd.2 b).symm⟩
    have hm : red 2 x' ∈ images x 2 .a60 := (mem_images_isometry _ _ _ _).2 ⟨A, hA, e⟩
    have h1 := images_eq_of_mem _ _ _ _ hm
    have h2 := images_eq_of_mem _ _ _ _ (red_mem_images x' 2 .a60)
    rw [← h1, h2]
  simp only [key q q' h1 h2, key k k' h3 h4]

example : wedgePoints 3 = [(0, 0), (0, 1), (1, 1)] := by decide

end Verif.Mesh
