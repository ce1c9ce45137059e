import Verif.TB.Spectrum
import Verif.TB.Standardize

/-!
# C162: sequences of `standardize`, `supercell`, `order_orbitals`, `shift_orbitals` (`order_atoms`, `shift_atoms`)

A user prepares a model by calling methods one after the other. The spectrum of the result is that of the original model, folded.
-/

namespace Verif.TB

open Matrix Polynomial
open Verif.Lattice (V3 vadd vsub Supercell detSpec latPoint)
open Verif.Fourier (phase bloch)
open Verif.Diag.Derivatives (Congr bloch_congr)

/-! ### Model -/

/-- A model with `nat` sites and `w` orbitals per site: in `elphmod/el.py`, `w` is 1 and sites are orbitals; in `elphmod/ph.py`, `w` is 3
and sites are atoms. The index of an orbital is `w * site + orbital`. -/
structure Sites (w : Nat) (K : Type) where
  nat : Nat
  data : Blocks (Fin nat × Fin w) K

/-- Method calls. -/
inductive Call
  /-- `standardize()` without arguments: `elphmod/el.py` 510, `elphmod/ph.py` 841 -/
  | standardize
  /-- `supercell(N1, N2, N3)`: `elphmod/el.py` 311, `elphmod/ph.py` 559 -/
  | supercell (N1 N2 N3 : V3)
  /-- `order_orbitals(*order)`, `order_atoms(*order)`: `elphmod/el.py` 451, `elphmod/ph.py` 764 -/
  | order (order : List Int)
  /-- `shift_orbitals(s, S)`, `shift_atoms(s, S)`: `elphmod/el.py` 469, `elphmod/ph.py` 797; `s` tells which indices belong to the slice -/
  | shift (s : Nat → Bool) (S : V3)

/-- Index of an array of length `n`: negative ones count from the end; `none` for `IndexError`. -/
def pyIndex (n : Nat) (i : Int) : Option (Fin n) :=
  let j := if i < 0 then i + n else i
  if h : 0 ≤ j ∧ j < n then some ⟨j.toNat, by omega⟩ else none

/-- `self.data[:, order, :]`, `self.data[:, :, order]`: `elphmod/el.py` 466-467, `elphmod/ph.py` 777-784. An order of another length than
the number of sites raises an exception in `ph` (784) and leaves the attribute `size` behind in `el`; it is `none` here. -/
def orderSites {w : Nat} {K : Type} (o : List Int) (m : Sites w K) : Option (Sites w K) :=
  (o.mapM (pyIndex m.nat)).bind fun js =>
    if h : js.length = m.nat then some ⟨m.nat, order (fun x => (js[(x.1 : ℕ)]'(by rw [h]; exact x.1.2), x.2)) m.data⟩ else none

/-- `elphmod/el.py` 346-403, `elphmod/ph.py` 629-680: the index `i * self.size + a` of the supercell belongs to cell `i`; in terms of
sites, `i * self.nat + a`. -/
def supercellSites {w : Nat} {K : Type} [Zero K] (N1 N2 N3 : V3) (m : Sites w K) : Option (Sites w K) :=
  (Verif.Lattice.supercell N1 N2 N3).bind fun s => (supercell s m.data).map fun d =>
    ⟨s.cells.length * m.nat, order (fun x => ((x.1.divNat : ℕ), x.1.modNat, x.2)) d⟩

/-- One method call. `std` is `standardize` of `el` or `ph`, which `shift_orbitals` and `shift_atoms` call at the end. -/
def call {w : Nat} {K : Type} [Zero K] (std : (n : Nat) → Blocks (Fin n × Fin w) K → Blocks (Fin n × Fin w) K) :
    Call → Sites w K → Option (Sites w K)
  | .standardize, m => some ⟨m.nat, std m.nat m.data⟩
  | .supercell N1 N2 N3, m => supercellSites N1 N2 N3 m
  | .order o, m => orderSites o m
  | .shift s S, m => some ⟨m.nat, std m.nat (shiftBlocks (fun x => s x.1) S m.data)⟩

/-- Method calls one after the other. -/
def calls {w : Nat} {K : Type} [Zero K] (std : (n : Nat) → Blocks (Fin n × Fin w) K → Blocks (Fin n × Fin w) K) :
    List Call → Sites w K → Option (Sites w K)
  | [], m => some m
  | c :: cs, m => (call std c m).bind (calls std cs)

/-- Calls of methods of an `el.Model`. -/
noncomputable def elCalls : List Call → Sites 1 ℂ → Option (Sites 1 ℂ) := calls fun _ l => elStandardize 0 false l

/-- Calls of methods of a `ph.Model`. -/
noncomputable def phCalls : List Call → Sites 3 ℝ → Option (Sites 3 ℝ) := calls fun _ l => phStandardize 0 false l

/-! ### Specification -/

/-- Specification: `order` contains each index once. -/
def IsOrder (n : Nat) (o : List Int) : Prop :=
  o.length = n ∧ (∀ i ∈ o, -(n : Int) ≤ i ∧ i < n) ∧ o.Pairwise fun i j => ¬ (n : Int) ∣ i - j

/-- Specification: supercells are not singular and orders are permutations. -/
def Allowed : Nat → List Call → Prop
  | _, [] => True
  | n, .standardize :: cs => Allowed n cs
  | n, .supercell N1 N2 N3 :: cs => detSpec N1 N2 N3 ≠ 0 ∧ Allowed ((detSpec N1 N2 N3).natAbs * n) cs
  | n, .order o :: cs => IsOrder n o ∧ Allowed n cs
  | n, .shift _ _ :: cs => Allowed n cs

/-- Specification: the wave vector in terms of the new reciprocal lattice vectors. -/
def foldK : List Call → (Fin 3 → ℝ) → Fin 3 → ℝ
  | [], k => k
  | .supercell N1 N2 N3 :: cs, k => foldK cs (superK N1 N2 N3 k)
  | _ :: cs, k => foldK cs k

/-- Specification: how many times larger the cell becomes. -/
def factor : List Call → Nat
  | [] => 1
  | .supercell N1 N2 N3 :: cs => (detSpec N1 N2 N3).natAbs * factor cs
  | _ :: cs => factor cs

/-! ### Proofs -/

theorem foldK_congr (cs : List Call) : ∀ k k', Congr k k' → Congr (foldK cs k) (foldK cs k') := by
  induction cs with
  | nil => exact fun k k' h => h
  | cons c cs ih =>
    intro k k' h
    cases c with
    | supercell N1 N2 N3 => exact ih _ _ (Verif.Diag.Derivatives.Congr.superK h)
    | standardize => exact ih _ _ h
    | order o => exact ih _ _ h
    | shift s S => exact ih _ _ h

/-- C162: for each wave vector of the result there are as many wave vectors of the original model as the cell has become larger. -/
theorem C162_unfolds (n : Nat) (cs : List Call) (h : Allowed n cs) (K : Fin 3 → ℝ) :
    ∃ ks, Unfolds (foldK cs) K ks ∧ ks.length = factor cs := by
  induction cs generalizing n with
  | nil => exact ⟨[K], Unfolds.id K, rfl⟩
  | cons c cs ih =>
    cases c with
    | standardize => exact ih n h
    | order o => exact ih n h.2
    | shift s S => exact ih n h
    | supercell N1 N2 N3 =>
      obtain ⟨ks, h1, h2⟩ := ih _ h.2
      choose f hf hlen using C42_unfolds N1 N2 N3 h.1
      refine ⟨ks.flatMap f, Unfolds.comp (fun _ _ h => Verif.Diag.Derivatives.Congr.superK h) (foldK_congr cs) h1 f hf, ?_⟩
      rw [List.length_flatMap]
      have h3 : ks.map (fun k => (f k).length) = List.replicate ks.length (detSpec N1 N2 N3).natAbs := by
        rw [List.eq_replicate_iff]
        simp [hlen]
      rw [h3, List.sum_replicate, h2, smul_eq_mul, mul_comm]
      rfl

section
variable {w : Nat} {K : Type} [AddCommMonoid K] (c : K →+ ℂ)

/-- The Bloch matrix. -/
noncomputable def wmat {α : Type} (l : Blocks α K) (k : Fin 3 → ℝ) : Matrix α α ℂ := fun a b => wsum (fun R M => c (M a b) * phase R k) l

theorem wmat_congr {α : Type} (l : Blocks α K) (k k' : Fin 3 → ℝ) (h : Congr k k') : wmat c l k = wmat c l k' := by
  funext a b
  unfold wmat wsum
  simp only [Verif.Diag.Derivatives.phase_congr h]

theorem wmat_order {α β : Type} (f : β → α) (l : Blocks α K) (k : Fin 3 → ℝ) : wmat c (order f l) k = (wmat c l k).submatrix f f := by
  funext a b
  show wsum (fun R M => c (M a b) * phase R k) (order f l) = wsum (fun R M => c (M (f a) (f b)) * phase R k) l
  unfold order wsum
  rw [List.map_map]
  rfl

theorem order_keys {α β : Type} (f : β → α) (l : Blocks α K) : (order f l).map Prod.fst = l.map Prod.fst := by
  unfold order
  rw [List.map_map]
  rfl

omit [AddCommMonoid K] in
theorem pyIndex_some (n : Nat) (i : Int) (h : -(n : Int) ≤ i ∧ i < n) : ∃ j : Fin n, pyIndex n i = some j ∧ (n : Int) ∣ i - (j : ℕ) := by
  unfold pyIndex
  by_cases hi : i < 0
  · simp only [hi, if_true]
    rw [dif_pos (by omega)]
    refine ⟨_, rfl, ⟨-1, ?_⟩⟩
    simp only
    omega
  · simp only [hi, if_false]
    rw [dif_pos (by omega)]
    refine ⟨_, rfl, ⟨0, ?_⟩⟩
    simp only
    omega

theorem mapM_pyIndex (n : Nat) (o : List Int) (h : ∀ i ∈ o, -(n : Int) ≤ i ∧ i < n) :
    ∃ js : List (Fin n), o.mapM (pyIndex n) = some js ∧ List.Forall₂ (fun (i : Int) (j : Fin n) => (n : Int) ∣ i - (j : ℕ)) o js := by
  induction o with
  | nil => exact ⟨[], rfl, .nil⟩
  | cons i o ih =>
    obtain ⟨j, h1, h2⟩ := pyIndex_some n i (h i (by simp))
    obtain ⟨js, h3, h4⟩ := ih fun i hi => h i (by simp [hi])
    refine ⟨j :: js, ?_, .cons h2 h4⟩
    simp [List.mapM_cons, h1, h3]

theorem orderSites_some (o : List Int) (m : Sites w K) (h : IsOrder m.nat o) :
    ∃ (f : Fin m.nat ≃ Fin m.nat), orderSites o m = some ⟨m.nat, order (fun x => (f x.1, x.2)) m.data⟩ := by
  obtain ⟨hlen, hb, hp⟩ := h
  obtain ⟨js, h1, h2⟩ := mapM_pyIndex m.nat o hb
  have hl : js.length = m.nat := by rw [← h2.length_eq, hlen]
  have hnd : js.Nodup := by
    unfold List.Nodup
    rw [List.pairwise_iff_getElem] at hp ⊢
    intro i j hi hj hij he
    have hi' : i < o.length := by omega
    have hj' : j < o.length := by omega
    refine hp i j hi' hj' hij ?_
    have h3 := (List.forall₂_iff_get.1 h2).2 i hi' hi
    have h4 := (List.forall₂_iff_get.1 h2).2 j hj' hj
    simp only [List.get_eq_getElem] at h3 h4
    rw [he] at h3
    have h5 := dvd_sub h3 h4
    have h6 : o[i] - ((js[j] : ℕ) : Int) - (o[j] - ((js[j] : ℕ) : Int)) = o[i] - o[j] := by ring
    rwa [h6] at h5
  let f : Fin m.nat → Fin m.nat := fun x => js[(x : ℕ)]'(by rw [hl]; exact x.2)
  have hinj : Function.Injective f := by
    intro x y hxy
    exact Fin.ext ((hnd.getElem_inj_iff).1 hxy)
  refine ⟨Equiv.ofBijective f (Finite.injective_iff_bijective.1 hinj), ?_⟩
  unfold orderSites
  rw [h1, Option.bind_some, dif_pos hl]
  rfl

/-- One call, `H` being the matrices before and after. -/
theorem call_spec (std : (n : Nat) → Blocks (Fin n × Fin w) K → Blocks (Fin n × Fin w) K)
    (hstd : ∀ n l k, wmat c (std n l) k = wmat c l k) (hkeys : ∀ n l, ((std n l).map Prod.fst).Nodup) (x : Call) (cs : List Call)
    (m : Sites w K) (hm : (m.data.map Prod.fst).Nodup) (h : Allowed m.nat (x :: cs)) :
    ∃ m', call std x m = some m' ∧ (m'.data.map Prod.fst).Nodup ∧ m'.nat = factor [x] * m.nat ∧ Allowed m'.nat cs ∧
      ∀ P ks, Unfolds (foldK [x]) P ks → (wmat c m'.data P).charpoly = (ks.map fun k => (wmat c m.data k).charpoly).prod := by
  have huniq : ∀ (P : Fin 3 → ℝ) (ks : List (Fin 3 → ℝ)), Unfolds (fun k => k) P ks →
      (wmat c m.data P).charpoly = (ks.map fun k => (wmat c m.data k).charpoly).prod := by
    intro P ks hks
    rw [hks.prod_eq (Unfolds.id P) _ fun k k' hc => by rw [wmat_congr c m.data k k' hc]]
    simp
  cases x with
  | standardize =>
    refine ⟨_, rfl, hkeys _ _, (one_mul _).symm, h, fun P ks hks => ?_⟩
    rw [hstd]
    exact huniq P ks hks
  | shift s S =>
    refine ⟨_, rfl, hkeys _ _, (one_mul _).symm, h, fun P ks hks => ?_⟩
    rw [hstd, ← huniq P ks hks]
    have h1 : wmat c (shiftBlocks (fun x : Fin m.nat × Fin w => s x.1) S m.data) P =
        Matrix.diagonal (shiftPhase (fun x : Fin m.nat × Fin w => s x.1) S P) * wmat c m.data P *
          Matrix.diagonal (fun a => star (shiftPhase (fun x : Fin m.nat × Fin w => s x.1) S P a)) := by
      ext a b
      rw [Matrix.mul_diagonal, Matrix.diagonal_mul]
      exact wsum_shift _ S m.data c P a b
    have hu : Matrix.diagonal (shiftPhase (fun x : Fin m.nat × Fin w => s x.1) S P) *
        Matrix.diagonal (fun a => star (shiftPhase (fun x : Fin m.nat × Fin w => s x.1) S P a)) = 1 := by
      rw [Matrix.diagonal_mul_diagonal]
      simp only [shiftPhase_mul_star, Matrix.diagonal_one]
    rw [h1, Matrix.charpoly_mul_comm, ← Matrix.mul_assoc, mul_eq_one_comm.1 hu, Matrix.one_mul]
  | order o =>
    obtain ⟨f, hf⟩ := orderSites_some o m h.1
    refine ⟨_, hf, ?_, (one_mul _).symm, h.2, fun P ks hks => ?_⟩
    · show ((order _ m.data).map Prod.fst).Nodup
      rw [order_keys]
      exact hm
    · rw [← huniq P ks hks]
      show (wmat c (order (fun x : Fin m.nat × Fin w => (f x.1, x.2)) m.data) P).charpoly = _
      rw [wmat_order]
      exact Matrix.charpoly_reindex (f.prodCongr (Equiv.refl (Fin w))).symm (wmat c m.data P)
  | supercell N1 N2 N3 =>
    obtain ⟨s, hs, -, -, -, -, hlen, -⟩ := Verif.Lattice.C17_supercell N1 N2 N3 h.1
    obtain ⟨d, hd, hnd, -⟩ := C42_blocks N1 N2 N3 h.1 s hs m.data hm
    refine ⟨⟨s.cells.length * m.nat, order (fun x => ((x.1.divNat : ℕ), x.1.modNat, x.2)) d⟩, ?_, ?_, ?_, ?_, fun P ks hks => ?_⟩
    · show supercellSites N1 N2 N3 m = _
      unfold supercellSites
      rw [hs, Option.bind_some, hd]
      rfl
    · show ((order _ d).map Prod.fst).Nodup
      rw [order_keys]
      exact hnd
    · show s.cells.length * m.nat = (detSpec N1 N2 N3).natAbs * 1 * m.nat
      rw [hlen, mul_one]
    · show Allowed (s.cells.length * m.nat) cs
      rw [hlen]
      exact h.2
    · have h1 := charpoly_supercell N1 N2 N3 h.1 s hs (fun k => wmat c d k) (fun k => wmat c m.data k)
        (fun k i hi a b => folding h.1 hs m.data hm c k i hi a b d hd) (fun k k' hc => wmat_congr c d k k' hc) P ks hks
      show (wmat c (order (fun x : Fin (s.cells.length * m.nat) × Fin w => ((x.1.divNat : ℕ), x.1.modNat, x.2)) d) P).charpoly = _
      rw [wmat_order]
      refine Eq.trans ?_ h1
      let e : Fin s.cells.length × Fin m.nat × Fin w ≃ Fin (s.cells.length * m.nat) × Fin w :=
        (Equiv.prodAssoc _ _ _).symm.trans (finProdFinEquiv.prodCongr (Equiv.refl (Fin w)))
      exact Matrix.charpoly_reindex e (cellMatrix (n := s.cells.length) (wmat c d P))

theorem calls_spec (std : (n : Nat) → Blocks (Fin n × Fin w) K → Blocks (Fin n × Fin w) K)
    (hstd : ∀ n l k, wmat c (std n l) k = wmat c l k) (hkeys : ∀ n l, ((std n l).map Prod.fst).Nodup) (cs : List Call)
    (m : Sites w K) (hm : (m.data.map Prod.fst).Nodup) (h : Allowed m.nat cs) :
    ∃ m', calls std cs m = some m' ∧ (m'.data.map Prod.fst).Nodup ∧ m'.nat = factor cs * m.nat ∧
      ∀ P ks, Unfolds (foldK cs) P ks → (wmat c m'.data P).charpoly = (ks.map fun k => (wmat c m.data k).charpoly).prod := by
  induction cs generalizing m with
  | nil =>
    refine ⟨m, rfl, hm, (one_mul _).symm, fun P ks hks => ?_⟩
    rw [hks.prod_eq (Unfolds.id P) _ fun k k' hc => by rw [wmat_congr c m.data k k' hc]]
    simp
  | cons x cs ih =>
    obtain ⟨m1, h1, h2, h3, h4, h5⟩ := call_spec c std hstd hkeys x cs m hm h
    obtain ⟨m2, h6, h7, h8, h9⟩ := ih m1 h2 h4
    have hfac : factor (x :: cs) = factor cs * factor [x] := by
      cases x with
      | supercell N1 N2 N3 =>
        show (detSpec N1 N2 N3).natAbs * factor cs = factor cs * ((detSpec N1 N2 N3).natAbs * 1)
        ring
      | standardize => exact (mul_one _).symm
      | order o => exact (mul_one _).symm
      | shift s S => exact (mul_one _).symm
    have hcomp : foldK (x :: cs) = fun k => foldK cs (foldK [x] k) := by
      cases x <;> rfl
    refine ⟨m2, ?_, h7, ?_, fun P ks hks => ?_⟩
    · show (call std x m).bind (calls std cs) = _
      rw [h1, Option.bind_some, h6]
    · rw [h8, h3, hfac, mul_assoc]
    · obtain ⟨ps, hps, -⟩ := C162_unfolds m1.nat cs h4 P
      have hx : Allowed m.nat [x] := by
        cases x with
        | supercell N1 N2 N3 => exact ⟨h.1, trivial⟩
        | standardize => exact trivial
        | order o => exact ⟨h.1, trivial⟩
        | shift s S => exact trivial
      choose f hf hlen using C162_unfolds m.nat [x] hx
      have hu : Unfolds (foldK (x :: cs)) P (ps.flatMap f) := by
        rw [hcomp]
        exact Unfolds.comp (foldK_congr [x]) (foldK_congr cs) hps f hf
      rw [hks.prod_eq hu _ fun k k' hc => by rw [wmat_congr c m.data k k' hc], h9 P ps hps]
      clear hps hu
      induction ps with
      | nil => rfl
      | cons p ps ih2 =>
        rw [List.map_cons, List.prod_cons, ih2, List.flatMap_cons, List.map_append, List.prod_append, h5 p (f p) (hf p)]

end

theorem wmat_el {α : Type} (l : Blocks α ℂ) (k : Fin 3 → ℝ) : wmat (AddMonoidHom.id ℂ) l k = Matrix.of (bloch l k) := rfl

theorem wmat_ph {α : Type} (l : Blocks α ℝ) (q : Fin 3 → ℝ) : wmat Complex.ofRealHom.toAddMonoidHom l q = Matrix.of (dynMat l q) := by
  funext a b
  rw [Matrix.of_apply, dynMat_eq]
  rfl

theorem nodup_of_lex (l : List V3) (h : l.Pairwise LexLt) : l.Nodup := by
  refine List.Pairwise.imp ?_ h
  rintro a b hab rfl
  unfold LexLt at hab
  omega

/-- C162: any sequence of `standardize()`, `supercell(...)` with linearly independent vectors, `order_orbitals(...)` with a permutation and
`shift_orbitals(...)`, applied to a model without repeated lattice vectors, succeeds; the energies of the resulting model at any wave vector
are, with multiplicities, the energies of the original model at the wave vectors that are folded onto it. -/
theorem C162_spectrum (cs : List Call) (m : Sites 1 ℂ) (hm : (m.data.map Prod.fst).Nodup) (h : Allowed m.nat cs) :
    ∃ m', elCalls cs m = some m' ∧ (m'.data.map Prod.fst).Nodup ∧ m'.nat = factor cs * m.nat ∧
      ∀ K ks, Unfolds (foldK cs) K ks →
        (Matrix.of (bloch m'.data K)).charpoly = (ks.map fun k => (Matrix.of (bloch m.data k)).charpoly).prod :=
  calls_spec (AddMonoidHom.id ℂ) _ (fun _ l k => funext fun a => funext fun b => C41_bloch l k a b)
    (fun _ l => nodup_of_lex _ (C41_sorted 0 false l)) cs m hm h

/-- C162: the same for `standardize()`, `supercell(...)`, `order_atoms(...)` and `shift_atoms(...)` of phonon models without long-range
terms and the squared frequencies. -/
theorem C162_spectrum_ph (cs : List Call) (m : Sites 3 ℝ) (hm : (m.data.map Prod.fst).Nodup) (h : Allowed m.nat cs) :
    ∃ m', phCalls cs m = some m' ∧ (m'.data.map Prod.fst).Nodup ∧ m'.nat = factor cs * m.nat ∧
      ∀ Q qs, Unfolds (foldK cs) Q qs →
        (Matrix.of (dynMat m'.data Q)).charpoly = (qs.map fun q => (Matrix.of (dynMat m.data q)).charpoly).prod := by
  obtain ⟨m', h1, h2, h3, h4⟩ := calls_spec Complex.ofRealHom.toAddMonoidHom (fun _ l => phStandardize 0 false l)
    (fun _ l k => by
      rw [wmat_ph, wmat_ph]
      exact funext fun a => funext fun b => C41_bloch_ph l k a b)
    (fun _ l => nodup_of_lex _ (C41_sorted_ph 0 false l)) cs m hm h
  refine ⟨m', h1, h2, h3, fun Q qs hqs => ?_⟩
  have h5 := h4 Q qs hqs
  simp only [wmat_ph] at h5
  exact h5

/-- Eigenvalues and the characteristic polynomial. -/
theorem eigen_iff {α : Type} [Fintype α] [DecidableEq α] (H : Matrix α α ℂ) (E : ℂ) :
    (∃ v : α → ℂ, v ≠ 0 ∧ H *ᵥ v = E • v) ↔ H.charpoly.IsRoot E := by
  unfold Polynomial.IsRoot
  rw [Matrix.eval_charpoly, ← Matrix.exists_mulVec_eq_zero_iff]
  refine exists_congr fun v => and_congr_right fun _ => ?_
  rw [Matrix.sub_mulVec, sub_eq_zero, eq_comm]
  rw [Matrix.scalar_apply, ← Matrix.smul_one_eq_diagonal, Matrix.smul_mulVec, Matrix.one_mulVec]

/-- C162: an energy is found for the resulting model at a wave vector if and only if it is found for the original model at some wave vector
that is folded onto it. -/
theorem C162_levels (cs : List Call) (m : Sites 1 ℂ) (hm : (m.data.map Prod.fst).Nodup) (h : Allowed m.nat cs) (m' : Sites 1 ℂ)
    (hm' : elCalls cs m = some m') (K : Fin 3 → ℝ) (E : ℂ) :
    (∃ v, v ≠ 0 ∧ Matrix.of (bloch m'.data K) *ᵥ v = E • v) ↔
      ∃ k, Congr (foldK cs k) K ∧ ∃ v, v ≠ 0 ∧ Matrix.of (bloch m.data k) *ᵥ v = E • v := by
  obtain ⟨m'', h1, -, -, h2⟩ := C162_spectrum cs m hm h
  rw [hm'] at h1
  obtain rfl := Option.some.inj h1
  obtain ⟨ks, hks, -⟩ := C162_unfolds m.nat cs h K
  rw [eigen_iff, h2 K ks hks]
  unfold Polynomial.IsRoot
  rw [Polynomial.eval_list_prod, List.prod_eq_zero_iff, List.map_map, List.mem_map]
  constructor
  · rintro ⟨k, hk, he⟩
    exact ⟨k, (hks.mem k).1 ⟨k, hk, Congr.refl k⟩, (eigen_iff _ E).2 he⟩
  · rintro ⟨k, hk, he⟩
    obtain ⟨k', hk', hc⟩ := (hks.mem k).2 hk
    refine ⟨k', hk', ?_⟩
    have h3 := (eigen_iff _ E).1 he
    have h4 : Matrix.of (bloch m.data k) = Matrix.of (bloch m.data k') := by
      ext a b
      exact bloch_congr hc m.data a b
    rw [h4] at h3
    exact h3

/-- C162: sums of any function over all energies, such as numbers of electrons, free energies or densities of states, are the same. -/
theorem C162_sum {M : Type} [AddCommMonoid M] (g : ℂ → M) (cs : List Call) (m : Sites 1 ℂ) (hm : (m.data.map Prod.fst).Nodup)
    (h : Allowed m.nat cs) (m' : Sites 1 ℂ) (hm' : elCalls cs m = some m') (K : Fin 3 → ℝ) (ks : List (Fin 3 → ℝ))
    (hks : Unfolds (foldK cs) K ks) :
    ((Matrix.of (bloch m'.data K)).charpoly.roots.map g).sum =
      (ks.map fun k => ((Matrix.of (bloch m.data k)).charpoly.roots.map g).sum).sum := by
  obtain ⟨m'', h1, -, -, h2⟩ := C162_spectrum cs m hm h
  rw [hm'] at h1
  obtain rfl := Option.some.inj h1
  rw [h2 K ks hks]
  clear h2 hks
  induction ks with
  | nil => simp
  | cons k ks ih =>
    have h3 : ((k :: ks).map fun k => (Matrix.of (bloch m.data k)).charpoly).prod ≠ 0 := by
      refine List.prod_ne_zero fun h4 => ?_
      obtain ⟨k', -, h5⟩ := List.mem_map.1 h4
      exact (Matrix.charpoly_monic _).ne_zero h5
    rw [List.map_cons, List.prod_cons] at h3 ⊢
    rw [Polynomial.roots_mul h3, Multiset.map_add, Multiset.sum_add, ih, List.map_cons, List.sum_cons]

/-- Specification: rows of the matrix product `M N`. -/
def mulRow (M N1 N2 N3 : V3) : V3 := latPoint N1 N2 N3 M

theorem superK_mul (M1 M2 M3 N1 N2 N3 : V3) (k : Fin 3 → ℝ) :
    superK M1 M2 M3 (superK N1 N2 N3 k) = superK (mulRow M1 N1 N2 N3) (mulRow M2 N1 N2 N3) (mulRow M3 N1 N2 N3) k := by
  funext x
  unfold superK mulRow latPoint
  fin_cases x <;> simp <;> ring

theorem det_mul (M1 M2 M3 N1 N2 N3 : V3) :
    detSpec (mulRow M1 N1 N2 N3) (mulRow M2 N1 N2 N3) (mulRow M3 N1 N2 N3) = detSpec M1 M2 M3 * detSpec N1 N2 N3 := by
  unfold Verif.Lattice.detSpec mulRow latPoint
  ring

/-- C162: a supercell of a supercell has the spectrum of the supercell with the product of the two matrices. -/
theorem C162_nested (M1 M2 M3 N1 N2 N3 : V3) (hM : detSpec M1 M2 M3 ≠ 0) (hN : detSpec N1 N2 N3 ≠ 0) (m : Sites 1 ℂ)
    (hm : (m.data.map Prod.fst).Nodup) :
    ∃ a b, elCalls [.supercell N1 N2 N3, .supercell M1 M2 M3] m = some a ∧
      elCalls [.supercell (mulRow M1 N1 N2 N3) (mulRow M2 N1 N2 N3) (mulRow M3 N1 N2 N3)] m = some b ∧ a.nat = b.nat ∧
      ∀ K, (Matrix.of (bloch a.data K)).charpoly = (Matrix.of (bloch b.data K)).charpoly := by
  have hA : Allowed m.nat [.supercell N1 N2 N3, .supercell M1 M2 M3] := ⟨hN, hM, trivial⟩
  have hB : Allowed m.nat [.supercell (mulRow M1 N1 N2 N3) (mulRow M2 N1 N2 N3) (mulRow M3 N1 N2 N3)] := by
    refine ⟨?_, trivial⟩
    rw [det_mul]
    exact mul_ne_zero hM hN
  obtain ⟨a, h1, -, h2, h3⟩ := C162_spectrum _ m hm hA
  obtain ⟨b, h4, -, h5, h6⟩ := C162_spectrum _ m hm hB
  refine ⟨a, b, h1, h4, ?_, fun K => ?_⟩
  · rw [h2, h5]
    congr 1
    show (detSpec N1 N2 N3).natAbs * ((detSpec M1 M2 M3).natAbs * 1) = (detSpec _ _ _).natAbs * 1
    rw [det_mul, Int.natAbs_mul]
    ring
  · obtain ⟨ks, hks, -⟩ := C162_unfolds m.nat _ hA K
    rw [h3 K ks hks]
    refine (h6 K ks ?_).symm
    have h7 : foldK [.supercell (mulRow M1 N1 N2 N3) (mulRow M2 N1 N2 N3) (mulRow M3 N1 N2 N3)] =
        foldK [.supercell N1 N2 N3, .supercell M1 M2 M3] := by
      funext k
      exact (superK_mul M1 M2 M3 N1 N2 N3 k).symm
    rw [h7]
    exact hks

/-! ### Example: a chain with two orbitals -/

/-- A dimerized chain. -/
noncomputable def exampleChain : Sites 1 ℂ := ⟨2, [((0, 0, 0), fun a b => if a = b then 0 else 1),
  ((1, 0, 0), fun a b => if a.1 = 1 ∧ b.1 = 0 then 2 else 0), ((-1, 0, 0), fun a b => if a.1 = 0 ∧ b.1 = 1 then 2 else 0)]⟩

/-- Calls that change the cell and the order of orbitals. -/
def exampleCalls : List Call := [.shift (fun i => i == 1) (1, 0, 0), .order [-1, 0], .supercell (2, 1, 0) (-1, 1, 0) (0, 0, -1),
  .standardize, .supercell (1, 0, 0) (0, -2, 0) (0, 0, 1), .order [0, 2, 4, 6, 8, 10, -1, -3, -5, -7, -9, -11]]

theorem exampleCalls_allowed : Allowed exampleChain.nat exampleCalls := by
  show Allowed 2 exampleCalls
  unfold exampleCalls
  simp only [Allowed, IsOrder]
  decide

theorem exampleChain_nodup : (exampleChain.data.map Prod.fst).Nodup := by
  show [((0, 0, 0) : V3), (1, 0, 0), (-1, 0, 0)].Nodup
  decide

example := C162_spectrum exampleCalls exampleChain exampleChain_nodup exampleCalls_allowed

example : ∃ ks, Unfolds (foldK exampleCalls) (fun _ => 1) ks ∧ ks.length = 6 := C162_unfolds 2 _ exampleCalls_allowed _

example : ∃ m', elCalls exampleCalls exampleChain = some m' ∧ m'.nat = 12 := by
  obtain ⟨m', h1, -, h2, -⟩ := C162_spectrum exampleCalls exampleChain exampleChain_nodup exampleCalls_allowed
  exact ⟨m', h1, h2⟩

example (E : ℂ) : ∃ m', elCalls exampleCalls exampleChain = some m' ∧
    ((∃ v, v ≠ 0 ∧ Matrix.of (bloch m'.data fun _ => 0) *ᵥ v = E • v) ↔
      ∃ k, Congr (foldK exampleCalls k) (fun _ => 0) ∧ ∃ v, v ≠ 0 ∧ Matrix.of (bloch exampleChain.data k) *ᵥ v = E • v) := by
  obtain ⟨m', h1, -⟩ := C162_spectrum exampleCalls exampleChain exampleChain_nodup exampleCalls_allowed
  exact ⟨m', h1, C162_levels _ _ exampleChain_nodup exampleCalls_allowed m' h1 _ E⟩

example (g : ℂ → ℝ) : ∃ m', ∃ ks : List (Fin 3 → ℝ), elCalls exampleCalls exampleChain = some m' ∧ ks.length = 6 ∧
    ((Matrix.of (bloch m'.data fun _ => 0)).charpoly.roots.map g).sum =
      (ks.map fun k => ((Matrix.of (bloch exampleChain.data k)).charpoly.roots.map g).sum).sum := by
  obtain ⟨m', h1, -⟩ := C162_spectrum exampleCalls exampleChain exampleChain_nodup exampleCalls_allowed
  obtain ⟨ks, h2, h3⟩ := C162_unfolds 2 _ exampleCalls_allowed fun _ => 0
  exact ⟨m', ks, h1, h3, C162_sum g _ _ exampleChain_nodup exampleCalls_allowed m' h1 _ ks h2⟩

example := C162_nested (1, 1, 0) (-1, 1, 0) (0, 0, 1) (2, 0, 0) (0, 1, 0) (0, 0, -1) (by decide) (by decide) exampleChain exampleChain_nodup

/-- Two atoms coupled by springs. -/
def exampleSprings : Sites 3 ℝ := ⟨2, [((0, 0, 0), fun a b => if a.2 = b.2 then if a.1 = b.1 then 2 else -1 else 0),
  ((0, 0, 1), fun a b => if a = (1, 2) ∧ b = (0, 2) then -1 else 0), ((0, 0, -1), fun a b => if a = (0, 2) ∧ b = (1, 2) then -1 else 0)]⟩

example := C162_spectrum_ph exampleCalls exampleSprings (by show [((0, 0, 0) : V3), (0, 0, 1), (0, 0, -1)].Nodup; decide) exampleCalls_allowed

end Verif.TB
