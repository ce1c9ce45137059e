import Verif.AtomicProj.Read
import Mathlib.Analysis.InnerProductSpace.PiL2

/-!
# Atomic projections (C139)
-/

namespace Verif.AtomicProj

open Verif.Text Verif.Xml Verif.Pwo

/-! ### Old format -/

/-- Lines before the tag (which do not contain the pattern), the tag and the lines after it. -/
abbrev Section := List Str × Str × List Str

/-- All lines of a section. -/
def Section.lines (s : Section) : List Str := s.1 ++ s.2.1 :: s.2.2

/-- The tag is the first line with the pattern. -/
def Section.At (s : Section) (pattern : String) : Prop := (∀ l ∈ s.1, ¬ pattern.toList <:+: l) ∧ pattern.toList <:+: s.2.1

/-- A file in the old format: sections with the numbers of bands, k points and orbitals and the Fermi level, k points, energies, projections. -/
structure OldFile where
  bands : Section
  nk : Section
  no : Section
  mu : Section
  k : Section
  eig : List Section
  wfc : List Section
  rest : List Str

/-- All lines of the file. -/
def OldFile.lines (f : OldFile) : List Str :=
  f.bands.lines ++ (f.nk.lines ++ (f.no.lines ++ (f.mu.lines ++ (f.k.lines ++ (f.eig.flatMap Section.lines ++
    (f.wfc.flatMap Section.lines ++ f.rest))))))

/-- The file contains the given data. -/
def OldFile.Describes (f : OldFile) (bands no : Nat) (mu : ℚ) (ps : List Point) : Prop :=
  f.bands.At "<NUMBER_OF_BANDS " ∧ (∃ l, f.bands.2.2 = [l] ∧ words l = [showInt bands]) ∧
  f.nk.At "<NUMBER_OF_K-POINTS " ∧ (∃ l, f.nk.2.2 = [l] ∧ words l = [showInt ps.length]) ∧
  f.no.At "<NUMBER_OF_ATOMIC_WFC " ∧ (∃ l, f.no.2.2 = [l] ∧ words l = [showInt no]) ∧
  f.mu.At "<FERMI_ENERGY " ∧ (∃ l w, f.mu.2.2 = [l] ∧ words l = [w] ∧ readFloat w = some mu) ∧
  f.k.At "<K-POINTS " ∧ List.Forall₂ (fun l (p : Point) => (words l).mapM readFloat = some [p.k.1, p.k.2.1, p.k.2.2]) f.k.2.2 ps ∧
  List.Forall₂ (fun s (p : Point) => Section.At s "<EIG " ∧
    List.Forall₂ (fun l e => ∃ w, words l = [w] ∧ readFloat w = some e) s.2.2 p.eps) f.eig ps ∧
  List.Forall₂ (fun s c => Section.At s "<ATMWFC." ∧ List.Forall₂ (ComplexText true) s.2.2 c) f.wfc (ps.flatMap (·.proj)) ∧
  ∀ p ∈ ps, p.eps.length = bands ∧ p.proj.length = no ∧ ∀ c ∈ p.proj, c.length = bands

theorem goto_section (s : Section) (pattern : String) (r : List Str) (h : s.At pattern) :
    (goto pattern.toList (s.lines ++ r)).2 = s.2.2 ++ r := by
  have : s.lines ++ r = s.1 ++ s.2.1 :: (s.2.2 ++ r) := by simp [Section.lines]
  rw [this, goto_skip _ _ _ _ h.1 h.2]

theorem sizeOld_eq (s : Section) (pattern : String) (n : Nat) (r : List Str) (h : s.At pattern)
    (hn : ∃ l, s.2.2 = [l] ∧ words l = [showInt n]) : sizeOld pattern (s.lines ++ r) = some (n, r) := by
  obtain ⟨l, h1, h2⟩ := hn
  have h3 : intOf l = some (n : Int) := by
    rw [intOf, h2]
    exact readInt_showInt n
  unfold sizeOld
  rw [goto_section s pattern r h, h1]
  simp [h3]

theorem readLines_eq {α : Type} (read : Str → Option α) (ls : List Str) (xs : List α) (r : List Str)
    (h : List.Forall₂ (fun l x => read l = some x) ls xs) : readLines read xs.length (ls ++ r) = some (xs, r) := by
  induction h with
  | nil => rfl
  | @cons l x ls xs h _ ih =>
    rw [List.cons_append, List.length_cons, readLines, h]
    simp [ih]

theorem readBlocks_eq {α : Type} (pattern : String) (read : Str → Option α) (m : Nat) (ss : List Section) (xs : List (List α)) (r : List Str)
    (h : List.Forall₂ (fun s x => Section.At s pattern ∧ List.Forall₂ (fun l y => read l = some y) s.2.2 x) ss xs)
    (hm : ∀ x ∈ xs, x.length = m) : readBlocks pattern read m xs.length (ss.flatMap Section.lines ++ r) = some (xs, r) := by
  induction h with
  | nil => rfl
  | @cons s x ss xs h _ ih =>
    have h1 := readLines_eq read s.2.2 x (ss.flatMap Section.lines ++ r) h.2
    rw [hm x (by simp)] at h1
    rw [List.flatMap_cons, List.append_assoc, List.length_cons, readBlocks, goto_section s pattern _ h.1, h1]
    simp [ih fun x hx => hm x (by simp [hx])]

theorem pairOld_text (l : Str) (z : ℚ × ℚ) (h : ComplexText true l z) : pairOld l = some z := by
  obtain ⟨u, v, hu, hv, s, t, rfl, hs, ht, hs', ht'⟩ := h
  have e1 : floatOf s = some z.1 := by rw [floatOf, hs', ← hu]
  have e2 : floatOf t = some z.2 := by rw [floatOf, ht', ← hv]
  rw [pairOld, splitOn_one ',' s t [] hs ht, List.nil_append]
  simp [e1, e2]

theorem chunks_eq (no : Nat) (ps : List Point) (h : ∀ p ∈ ps, p.proj.length = no) :
    chunks no ps.length (ps.flatMap (·.proj)) = ps.map (·.proj) := by
  induction ps with
  | nil => rfl
  | cons p ps ih =>
    have h0 := h p (by simp)
    rw [List.flatMap_cons, List.length_cons, chunks, List.map_cons, List.take_append_of_le_length h0.ge, List.take_of_length_le h0.le,
      List.drop_append_of_le_length h0.ge, List.drop_of_length_le h0.le, List.nil_append, ih fun p hp => h p (by simp [hp])]

theorem zip_points (ps : List Point) :
    (((ps.map (·.k)).zip ((ps.map (·.eps)).zip (ps.map (·.proj)))).map fun p => (⟨p.1, p.2.1, p.2.2⟩ : Point)) = ps := by
  induction ps with
  | nil => rfl
  | cons p ps ih => simp [ih]

theorem forall₂_map {α β γ : Type} (R : α → γ → Prop) (f : β → γ) {l : List α} {m : List β} (h : List.Forall₂ (fun a b => R a (f b)) l m) :
    List.Forall₂ R l (m.map f) := by
  induction h with
  | nil => exact .nil
  | cons h _ ih => exact .cons h ih

theorem readOld_eq (f : OldFile) (bands no : Nat) (mu : ℚ) (ps : List Point) (h : f.Describes bands no mu ps) :
    readOld f.lines = some (bands, no, mu, ps) := by
  obtain ⟨a1, n1, a2, n2, a3, n3, a4, ⟨l, w, hl, hw, hr⟩, a5, hk, he, hp, hs⟩ := h
  have hmu : floatOf l = some mu := by rw [floatOf, hw]; exact hr
  have e1 : readLines (fun l => nums l >>= row3) ps.length (f.k.2.2 ++ (f.eig.flatMap Section.lines ++
      (f.wfc.flatMap Section.lines ++ f.rest))) = some (ps.map (·.k), f.eig.flatMap Section.lines ++
      (f.wfc.flatMap Section.lines ++ f.rest)) := by
    have := readLines_eq (fun l => nums l >>= row3) f.k.2.2 (ps.map (·.k)) (f.eig.flatMap Section.lines ++
      (f.wfc.flatMap Section.lines ++ f.rest)) (forall₂_map _ _ (hk.imp fun l p h => by simp [nums, h, row3]))
    simpa using this
  have e2 : readBlocks "<EIG " floatOf bands ps.length (f.eig.flatMap Section.lines ++ (f.wfc.flatMap Section.lines ++ f.rest)) =
      some (ps.map (·.eps), f.wfc.flatMap Section.lines ++ f.rest) := by
    have := readBlocks_eq "<EIG " floatOf bands f.eig (ps.map (·.eps)) (f.wfc.flatMap Section.lines ++ f.rest)
      (forall₂_map _ _ (he.imp fun s p h => ⟨h.1, h.2.imp fun l e h => by
        obtain ⟨w, h1, h2⟩ := h
        rw [floatOf, h1]
        exact h2⟩)) (by
        intro x hx
        obtain ⟨p, hp, rfl⟩ := List.mem_map.1 hx
        exact (hs p hp).1)
    simpa using this
  have hlen : (ps.flatMap (·.proj)).length = ps.length * no := by
    clear e1 e2 hk he hp n2
    induction ps with
    | nil => simp
    | cons p ps ih =>
      rw [List.flatMap_cons, List.length_append, List.length_cons, (hs p (by simp)).2.1, ih fun q hq => hs q (by simp [hq])]
      ring
  have e3 : readBlocks "<ATMWFC." pairOld bands (ps.length * no) (f.wfc.flatMap Section.lines ++ f.rest) =
      some (ps.flatMap (·.proj), f.rest) := by
    have := readBlocks_eq "<ATMWFC." pairOld bands f.wfc (ps.flatMap (·.proj)) f.rest
      (hp.imp fun s c h => ⟨h.1, h.2.imp fun l z h => pairOld_text l z h⟩) (by
        intro x hx
        obtain ⟨p, hp, hx⟩ := List.mem_flatMap.1 hx
        exact (hs p hp).2.2 x hx)
    rwa [hlen] at this
  unfold readOld OldFile.lines
  rw [sizeOld_eq f.bands _ bands _ a1 n1]
  simp only [Option.bind_eq_bind, Option.bind_some]
  rw [sizeOld_eq f.nk _ ps.length _ a2 n2]
  simp only [Option.bind_some]
  rw [sizeOld_eq f.no _ no _ a3 n3]
  simp only [Option.bind_some]
  rw [goto_section f.mu _ _ a4, hl]
  simp only [List.cons_append, List.nil_append, hmu, Option.bind_some]
  rw [goto_section f.k _ _ a5]
  simp only [Option.bind_eq_bind] at e1
  rw [e1]
  simp only [Option.bind_some]
  rw [e2]
  simp only [Option.bind_some]
  rw [e3]
  simp only [Option.bind_some]
  rw [chunks_eq no ps fun p hp => (hs p hp).2.1, zip_points]

/-! ### What is returned -/

/-- The result is right: k points and energies (minus Fermi level if desired) in the order of the file, the cumulative distance starting from zero,
projections for each k point, band and orbital and the squares of their moduli, and the remaining weight if desired. -/
def Right (other fromFermi : Bool) (mu : ℚ) (ps : List Point) (r : Result) : Prop :=
  r.k = ps.map (·.k) ∧
  r.eps = ps.map (fun p => p.eps.map fun e => if fromFermi then e - mu else e) ∧
  r.x.length = ps.length ∧ r.x[0]? = some 0 ∧
  (∀ (i : Nat) (p q : Point), ps[i]? = some p → ps[i + 1]? = some q → ∃ x y, r.x[i]? = some x ∧ r.x[i + 1]? = some y ∧ x ≤ y ∧
    (y - x) ^ 2 = (((q.k.1 - p.k.1) ^ 2 + (q.k.2.1 - p.k.2.1) ^ 2 + (q.k.2.2 - p.k.2.2) ^ 2 : ℚ) : ℝ)) ∧
  (∀ (ik : Nat) (p : Point), ps[ik]? = some p → ∃ (A : List (List (ℚ × ℚ))) (B : List (List ℚ)), r.proj[ik]? = some A ∧ r.proj2[ik]? = some B ∧ A.length = p.eps.length ∧ B.length = p.eps.length ∧
    ∀ n : Nat, n < p.eps.length → ∃ (a : List (ℚ × ℚ)) (b : List ℚ), A[n]? = some a ∧ B[n]? = some b ∧ a.length = p.proj.length ∧
      b.length = p.proj.length + (if other then 1 else 0) ∧ (other = true → b.sum = 1) ∧
      ∀ (o : Nat) (c : List (ℚ × ℚ)) (z : ℚ × ℚ), p.proj[o]? = some c → c[n]? = some z → a[o]? = some z ∧ b[o]? = some (z.1 ^ 2 + z.2 ^ 2))

theorem pathTail_length (x : ℝ) (p : ℚ × ℚ × ℚ) (ks : List (ℚ × ℚ × ℚ)) : (pathTail x p ks).length = ks.length := by
  induction ks generalizing x p with
  | nil => rfl
  | cons q ks ih => simp [pathTail, ih]

theorem path_step (x : ℝ) (k : ℚ × ℚ × ℚ) (ks : List (ℚ × ℚ × ℚ)) (i : Nat) (p q : ℚ × ℚ × ℚ) (hp : (k :: ks)[i]? = some p)
    (hq : (k :: ks)[i + 1]? = some q) :
    ∃ u, (x :: pathTail x k ks)[i]? = some u ∧ (x :: pathTail x k ks)[i + 1]? = some (u + dist p q) := by
  induction ks generalizing x k i with
  | nil => simp at hq
  | cons k' ks ih =>
    cases i with
    | zero =>
      simp only [List.getElem?_cons_zero, Option.some.injEq, List.getElem?_cons_succ, zero_add] at hp hq
      subst hp hq
      exact ⟨x, rfl, rfl⟩
    | succ i =>
      rw [List.getElem?_cons_succ] at hp hq
      obtain ⟨u, h1, h2⟩ := ih (x + dist k k') k' i hp hq
      refine ⟨u, ?_, ?_⟩
      · rw [List.getElem?_cons_succ, pathTail]
        exact h1
      · rw [List.getElem?_cons_succ, pathTail]
        exact h2

theorem bandsOf_getElem (bands : Nat) (p : Point) (n : Nat) (h : n < bands) :
    (bandsOf bands p)[n]? = some (p.proj.map fun w => w.getD n (0, 0)) := by
  simp [bandsOf, h]

theorem weights_sum (l : List (ℚ × ℚ)) : (weights true l).sum = 1 := by
  simp only [weights, if_true, List.sum_append, List.sum_cons, List.sum_nil]
  ring

theorem weights_length (other : Bool) (l : List (ℚ × ℚ)) : (weights other l).length = l.length + if other then 1 else 0 := by
  cases other <;> simp [weights]

theorem weights_getElem (other : Bool) (l : List (ℚ × ℚ)) (o : Nat) (z : ℚ × ℚ) (h : l[o]? = some z) :
    (weights other l)[o]? = some (z.1 ^ 2 + z.2 ^ 2) := by
  have hlt : o < l.length := (List.getElem?_eq_some_iff.1 h).1
  cases other
  · simp [weights, h]
  · simp only [weights, if_true]
    rw [List.getElem?_append_left (by simpa using hlt)]
    simp [h]

theorem result_right (other fromFermi : Bool) (bands no : Nat) (mu : ℚ) (ps : List Point) (hne : ps ≠ [])
    (hs : ∀ p ∈ ps, p.eps.length = bands) :
    ∃ r, result other fromFermi none (bands, no, mu, ps) = some r ∧ Right other fromFermi mu ps r := by
  cases ps with
  | nil => exact absurd rfl hne
  | cons p0 ps =>
    generalize hps : p0 :: ps = l
    have hpath : path (l.map (·.k)) = some (0 :: pathTail 0 p0.k (ps.map (·.k))) := by rw [← hps]; rfl
    refine ⟨_, by rw [result, hpath]; rfl, ?_⟩
    have hk : (finish mu fromFermi none l).map (·.k) = l.map (·.k) := by
      cases fromFermi <;> simp [finish]
    have hb : (finish mu fromFermi none l).map (bandsOf bands) = l.map (bandsOf bands) := by
      cases fromFermi
      · simp [finish]
      · simp only [finish, if_true, List.map_map]
        rfl
    have hb2 : (finish mu fromFermi none l).map (fun p => (bandsOf bands p).map (weights other)) =
        l.map fun p => (bandsOf bands p).map (weights other) := by
      cases fromFermi
      · simp [finish]
      · simp only [finish, if_true, List.map_map]
        rfl
    refine ⟨hk, ?_, ?_, rfl, ?_, ?_⟩
    · cases fromFermi <;> simp [finish]
    · simp [pathTail_length, ← hps]
    · intro i p q hp hq
      obtain ⟨u, h1, h2⟩ := path_step 0 p0.k (ps.map (·.k)) i p.k q.k
        (by rw [← List.map_cons (f := fun p : Point => p.k), hps, List.getElem?_map, hp]; rfl)
        (by rw [← List.map_cons (f := fun p : Point => p.k), hps, List.getElem?_map, hq]; rfl)
      refine ⟨u, u + dist p.k q.k, h1, h2, ?_, ?_⟩
      · have := Real.sqrt_nonneg ((((q.k.1 - p.k.1) ^ 2 + (q.k.2.1 - p.k.2.1) ^ 2 + (q.k.2.2 - p.k.2.2) ^ 2 : ℚ)) : ℝ)
        simp only [dist]
        linarith
      · rw [add_sub_cancel_left, dist, Real.sq_sqrt]
        exact_mod_cast (by positivity : (0 : ℚ) ≤ (q.k.1 - p.k.1) ^ 2 + (q.k.2.1 - p.k.2.1) ^ 2 + (q.k.2.2 - p.k.2.2) ^ 2)
    · intro ik p hp
      have hlen := hs p (by rw [hps]; exact List.mem_of_getElem? hp)
      refine ⟨bandsOf bands p, (bandsOf bands p).map (weights other), ?_, ?_, by simp [bandsOf, hlen], by simp [bandsOf, hlen], ?_⟩
      · show ((finish mu fromFermi none l).map (bandsOf bands))[ik]? = _
        rw [hb, List.getElem?_map, hp]
        rfl
      · show ((finish mu fromFermi none l).map (fun p => (bandsOf bands p).map (weights other)))[ik]? = _
        rw [hb2, List.getElem?_map, hp]
        rfl
      · intro n hn
        rw [hlen] at hn
        refine ⟨_, _, bandsOf_getElem bands p n hn, by rw [List.getElem?_map, bandsOf_getElem bands p n hn]; rfl, by simp, ?_, ?_, ?_⟩
        · rw [weights_length, List.length_map]
        · rintro rfl
          exact weights_sum _
        · intro o c z ho hz
          have : (p.proj.map fun w => w.getD n (0, 0))[o]? = some z := by
            rw [List.getElem?_map, ho]
            simp [List.getD_eq_getElem?_getD, hz]
          exact ⟨this, weights_getElem other _ o z this⟩

theorem describes_sizes {bs : List Block} {bands no : Nat} {ps : List Point}
    (h : List.Forall₂ (fun b p => Block.Describes b bands no p) bs ps) :
    ∀ p ∈ ps, p.eps.length = bands ∧ p.proj.length = no ∧ ∀ c ∈ p.proj, c.length = bands := by
  induction h with
  | nil => simp
  | cons h _ ih =>
    intro p hp
    rcases List.mem_cons.1 hp with rfl | hp
    · exact ⟨h.2.2.1, h.2.2.2.2⟩
    · exact ih p hp

/-- C139: energies, projections, k points and path are read correctly from any file in the new format, whatever the tags, the order of the attributes
in the header and the number of energies per line. -/
theorem C139_new (f : File) (bands no : Nat) (mu : ℚ) (ps : List Point) (h : f.Describes bands no mu ps) (hne : ps ≠ [])
    (other fromFermi : Bool) :
    ∃ r, readAtomicProjections other fromFermi none f.lines = some r ∧ Right other fromFermi mu ps r := by
  rw [readAtomicProjections, readNew_eq f bands no mu ps h]
  exact result_right other fromFermi bands no mu ps hne fun p hp => (describes_sizes h.2.2.2.2.2.2.2.2.2 p hp).1

/-- C139: the same for any file in the old format, whatever else is between the sections. -/
theorem C139_old (f : OldFile) (bands no : Nat) (mu : ℚ) (ps : List Point) (h : f.Describes bands no mu ps) (hne : ps ≠ []) (fromFermi : Bool) :
    ∃ r, readAtomicProjectionsOld fromFermi none f.lines = some r ∧ Right false fromFermi mu ps r := by
  rw [readAtomicProjectionsOld, readOld_eq f bands no mu ps h]
  exact result_right false fromFermi bands no mu ps hne fun p hp => (h.2.2.2.2.2.2.2.2.2.2.2.2 p hp).1

/-! ### Order of bands -/

theorem reorder_perm (bands : Nat) (o : List Nat) (ho : o.Perm (List.range bands)) (p : Point) (hp : p.eps.length = bands)
    (hc : ∀ c ∈ p.proj, c.length = bands) :
    ((reorder o p).eps.zip (bandsOf bands (reorder o p))).Perm (p.eps.zip (bandsOf bands p)) := by
  have hlen : o.length = bands := by simpa using ho.length_eq
  have e1 : (reorder o p).eps.zip (bandsOf bands (reorder o p)) =
      o.map fun n => (p.eps.getD n 0, p.proj.map fun w => w.getD n (0, 0)) := by
    apply List.ext_getElem
    · simp [reorder, bandsOf, hlen]
    · intro i h1 h2
      have hi : i < o.length := by simpa using h2
      simp only [List.getElem_zip, reorder, bandsOf, List.getElem_map, List.getElem_range, List.map_map, Prod.mk.injEq, true_and]
      apply List.map_congr_left
      intro w _
      simp [List.getD_eq_getElem?_getD, hi]
  have e2 : p.eps.zip (bandsOf bands p) = (List.range bands).map fun n => (p.eps.getD n 0, p.proj.map fun w => w.getD n (0, 0)) := by
    apply List.ext_getElem
    · simp [bandsOf, hp]
    · intro i h1 h2
      have hi : i < bands := by simpa using h2
      simp [List.getElem_zip, bandsOf, List.getD_eq_getElem?_getD, hp, hi]
  rw [e1, e2]
  exact ho.map _

/-- Energies and projections at each k point are permuted in the same way; everything else is the same. -/
def Reordered (other : Bool) (nk : Nat) (r r0 : Result) : Prop := r.x = r0.x ∧ r.k = r0.k ∧
  ∀ ik < nk, ∃ (e e0 : List ℚ) (A A0 : List (List (ℚ × ℚ))), r.eps[ik]? = some e ∧ r0.eps[ik]? = some e0 ∧ r.proj[ik]? = some A ∧
    r0.proj[ik]? = some A0 ∧ r.proj2[ik]? = some (A.map (weights other)) ∧ r0.proj2[ik]? = some (A0.map (weights other)) ∧
    (e.zip A).Perm (e0.zip A0)

theorem result_eq (other fromFermi : Bool) (o : Option (List Point → List (List Nat))) (bands no : Nat) (mu : ℚ) (ps : List Point) (x : List ℝ)
    (h : path (ps.map (·.k)) = some x) : result other fromFermi o (bands, no, mu, ps) =
      some ⟨x, (finish mu fromFermi o ps).map (·.k), (finish mu fromFermi o ps).map (·.eps), (finish mu fromFermi o ps).map (bandsOf bands),
        (finish mu fromFermi o ps).map fun p => (bandsOf bands p).map (weights other)⟩ := by
  rw [result, h]
  rfl

theorem result_order (bands no : Nat) (mu : ℚ) (ps : List Point)
    (hne : ps ≠ []) (hs : ∀ p ∈ ps, p.eps.length = bands ∧ ∀ c ∈ p.proj, c.length = bands)
    (o : List Point → List (List Nat)) (ho : ∀ l, (o l).length = l.length ∧ ∀ r ∈ o l, r.Perm (List.range bands)) (other fromFermi : Bool) :
    ∃ r r0, result other fromFermi (some o) (bands, no, mu, ps) = some r ∧ result other fromFermi none (bands, no, mu, ps) = some r0 ∧
      Reordered other ps.length r r0 := by
  cases ps with
  | nil => exact absurd rfl hne
  | cons p0 ps =>
    generalize hps : p0 :: ps = l
    have hpath : path (l.map (·.k)) = some (0 :: pathTail 0 p0.k (ps.map (·.k))) := by rw [← hps]; rfl
    have hf : finish mu fromFermi (some o) l = List.zipWith reorder (o (finish mu fromFermi none l)) (finish mu fromFermi none l) := by
      cases fromFermi <;> rfl
    generalize hfin : finish mu fromFermi none l = m at hf
    have hm : m.length = l.length := by
      rw [← hfin]
      cases fromFermi <;> simp [finish]
    have hms : ∀ p ∈ m, p.eps.length = bands ∧ ∀ c ∈ p.proj, c.length = bands := by
      rw [← hfin]
      intro p hp
      cases fromFermi
      · exact hs p (by rw [hps]; simpa [finish] using hp)
      · simp only [finish, if_true, List.mem_map] at hp
        obtain ⟨q, hq, rfl⟩ := hp
        have := hs q (by rw [hps]; exact hq)
        simpa using this
    obtain ⟨hol, hop⟩ := ho m
    refine ⟨_, _, result_eq _ _ _ _ _ _ _ _ hpath, result_eq _ _ _ _ _ _ _ _ hpath, rfl, ?_, ?_⟩
    · show (finish mu fromFermi (some o) l).map (·.k) = (finish mu fromFermi none l).map (·.k)
      rw [hf, hfin]
      apply List.ext_getElem
      · simp [hol]
      · intro i h1 h2
        simp [reorder]
    · intro ik hik
      have h1 : ik < m.length := by omega
      have h2 : ik < (o m).length := by omega
      have hg : (finish mu fromFermi (some o) l)[ik]? = some (reorder (o m)[ik] m[ik]) := by
        rw [hf, List.getElem?_zipWith]
        simp [h1, h2]
      have hg0 : (finish mu fromFermi none l)[ik]? = some m[ik] := by
        rw [hfin]
        simp [h1]
      refine ⟨(reorder (o m)[ik] m[ik]).eps, m[ik].eps, bandsOf bands (reorder (o m)[ik] m[ik]), bandsOf bands m[ik], ?_, ?_, ?_, ?_, ?_, ?_, ?_⟩
      · show ((finish mu fromFermi (some o) l).map (·.eps))[ik]? = _
        rw [List.getElem?_map, hg]
        rfl
      · show ((finish mu fromFermi none l).map (·.eps))[ik]? = _
        rw [List.getElem?_map, hg0]
        rfl
      · show ((finish mu fromFermi (some o) l).map (bandsOf bands))[ik]? = _
        rw [List.getElem?_map, hg]
        rfl
      · show ((finish mu fromFermi none l).map (bandsOf bands))[ik]? = _
        rw [List.getElem?_map, hg0]
        rfl
      · show ((finish mu fromFermi (some o) l).map fun p => (bandsOf bands p).map (weights other))[ik]? = _
        rw [List.getElem?_map, hg]
        rfl
      · show ((finish mu fromFermi none l).map fun p => (bandsOf bands p).map (weights other))[ik]? = _
        rw [List.getElem?_map, hg0]
        rfl
      · exact reorder_perm bands _ (hop _ (List.getElem_mem h2)) _ (hms _ (List.getElem_mem h1)).1 (hms _ (List.getElem_mem h1)).2

/-- C139: if bands are ordered, energies and projections at each k point are permuted in the same way (whatever the permutation), i.e., each energy
keeps its projections; nothing else changes. -/
theorem C139_order (f : File) (bands no : Nat) (mu : ℚ) (ps : List Point) (h : f.Describes bands no mu ps) (hne : ps ≠ [])
    (o : List Point → List (List Nat)) (ho : ∀ l, (o l).length = l.length ∧ ∀ r ∈ o l, r.Perm (List.range bands)) (other fromFermi : Bool) :
    ∃ r r0, readAtomicProjections other fromFermi (some o) f.lines = some r ∧ readAtomicProjections other fromFermi none f.lines = some r0 ∧
      Reordered other ps.length r r0 := by
  rw [readAtomicProjections, readAtomicProjections, readNew_eq f bands no mu ps h]
  have hs := describes_sizes h.2.2.2.2.2.2.2.2.2
  exact result_order bands no mu ps hne (fun p hp => ⟨(hs p hp).1, (hs p hp).2.2⟩) o ho other fromFermi

/-- C139: the same for the old format. -/
theorem C139_order_old (f : OldFile) (bands no : Nat) (mu : ℚ) (ps : List Point) (h : f.Describes bands no mu ps) (hne : ps ≠ [])
    (o : List Point → List (List Nat)) (ho : ∀ l, (o l).length = l.length ∧ ∀ r ∈ o l, r.Perm (List.range bands)) (fromFermi : Bool) :
    ∃ r r0, readAtomicProjectionsOld fromFermi (some o) f.lines = some r ∧ readAtomicProjectionsOld fromFermi none f.lines = some r0 ∧
      Reordered false ps.length r r0 := by
  rw [readAtomicProjectionsOld, readAtomicProjectionsOld, readOld_eq f bands no mu ps h]
  have hs := h.2.2.2.2.2.2.2.2.2.2.2.2
  exact result_order bands no mu ps hne (fun p hp => ⟨(hs p hp).1, (hs p hp).2.2⟩) o ho false fromFermi

/-! ### Path -/

/-- A k point as element of Euclidean space. -/
noncomputable def vec (p : ℚ × ℚ × ℚ) : EuclideanSpace ℝ (Fin 3) := !₂[(p.1 : ℝ), (p.2.1 : ℝ), (p.2.2 : ℝ)]

theorem dist_eq (p q : ℚ × ℚ × ℚ) : dist p q = ‖vec q - vec p‖ := by
  rw [EuclideanSpace.norm_eq, dist]
  congr 1
  simp only [vec, Fin.sum_univ_three, PiLp.sub_apply, Real.norm_eq_abs, sq_abs]
  push_cast
  simp

/-- C139: the distance along the path is never less than the distance of the points as the crow flies. -/
theorem C139_path (ks : List (ℚ × ℚ × ℚ)) (xs : List ℝ) (h : path ks = some xs) (i d : Nat) (p q : ℚ × ℚ × ℚ) (x y : ℝ)
    (hp : ks[i]? = some p) (hq : ks[i + d]? = some q) (hx : xs[i]? = some x) (hy : xs[i + d]? = some y) :
    ‖vec q - vec p‖ ≤ y - x := by
  induction d generalizing q y with
  | zero =>
    rw [Nat.add_zero, hp] at hq
    rw [Nat.add_zero, hx] at hy
    cases hq
    cases hy
    simp
  | succ d ih =>
    cases ks with
    | nil => simp at hp
    | cons k ks =>
      rw [path, Option.some.injEq] at h
      subst h
      have hlt : i + d < (k :: ks).length := by
        have := (List.getElem?_eq_some_iff.1 hq).1
        omega
      obtain ⟨u, h1, h2⟩ := path_step 0 k ks (i + d) (k :: ks)[i + d] q (List.getElem?_eq_getElem hlt) hq
      rw [← Nat.add_assoc] at hy
      rw [hy, Option.some.injEq] at h2
      have h3 := ih (k :: ks)[i + d] u (List.getElem?_eq_getElem hlt) h1
      rw [h2, dist_eq]
      calc ‖vec q - vec p‖ = ‖(vec q - vec (k :: ks)[i + d]) + (vec (k :: ks)[i + d] - vec p)‖ := by rw [sub_add_sub_cancel]
        _ ≤ ‖vec q - vec (k :: ks)[i + d]‖ + ‖vec (k :: ks)[i + d] - vec p‖ := norm_add_le _ _
        _ ≤ _ := by linarith

/-! ### Examples -/

/-- Two bands, one orbital, two k points. -/
def pointsExample : List Point := [⟨(0, 0, 0), [-1, 3 / 2], [[(3 / 5, 4 / 5), (0, 1 / 2)]]⟩, ⟨(1 / 2, 0, 0), [0, 2], [[(1, 0), (0, 0)]]⟩]

/-- A file in the new format. -/
def fileExample : File where
  first := "<PROJECTIONS>\n".toList
  before := "  <HEADER ".toList
  attributes := [("NUMBER_OF_BANDS".toList, "2".toList), ("NUMBER_OF_K-POINTS".toList, "2".toList),
    ("NUMBER_OF_SPIN_COMPONENTS".toList, "1".toList), ("NUMBER_OF_ATOMIC_WFC".toList, "1".toList), ("FERMI_ENERGY".toList, "0.5".toList)]
  after := "/>\n".toList
  third := "  <EIGENSTATES>\n".toList
  blocks := [
    { tag1 := "<K-POINT>".toList, kLine := " 0.0 0.0 0.0\n".toList, tag2 := "</K-POINT>".toList, tag3 := "<E>".toList,
      eLines := ["-1.0\n".toList, "1.5\n".toList], tag4 := "</E>".toList, tag5 := "<PROJS>".toList,
      wfc := [("<ATOMIC_WFC>".toList, ["0.6 0.8".toList, "0.0 0.5".toList], "</ATOMIC_WFC>".toList)], tag6 := "</PROJS>".toList },
    { tag1 := "<K-POINT>".toList, kLine := " 0.5 0.0 0.0\n".toList, tag2 := "</K-POINT>".toList, tag3 := "<E>".toList,
      eLines := ["0.0 2.0\n".toList], tag4 := "</E>".toList, tag5 := "<PROJS>".toList,
      wfc := [("<ATOMIC_WFC>".toList, ["1.0 0.0".toList, "0.0 0.0".toList], "</ATOMIC_WFC>".toList)], tag6 := "</PROJS>".toList }]
  rest := []

example : fileExample.Describes 2 1 (1 / 2) pointsExample := by
  refine ⟨by decide, by decide, by unfold Clean; decide +kernel, by decide +kernel, ⟨'N', "UMBER_OF_BANDS".toList, "2".toList, _, rfl, by decide⟩,
    by decide +kernel, by decide +kernel, by decide +kernel, ⟨"0.5".toList, by decide +kernel, by decide +kernel⟩, ?_⟩
  refine .cons ⟨by decide +kernel, ⟨[[-1], [3 / 2]], by decide +kernel, by decide +kernel, by decide +kernel⟩, rfl, by decide +kernel, rfl,
    by decide +kernel⟩ (.cons ⟨by decide +kernel, ⟨[[0, 2]], by decide +kernel, by decide +kernel, by decide +kernel⟩, rfl, by decide +kernel, rfl,
    by decide +kernel⟩ .nil)

/-- A file in the old format. -/
def oldExample : OldFile where
  bands := (["<HEADER>".toList], "<NUMBER_OF_BANDS type=>".toList, ["  2".toList])
  nk := (["</NUMBER_OF_BANDS>".toList], "<NUMBER_OF_K-POINTS type=>".toList, ["  2".toList])
  no := (["</NUMBER_OF_K-POINTS>".toList], "<NUMBER_OF_ATOMIC_WFC type=>".toList, ["  1".toList])
  mu := (["</NUMBER_OF_ATOMIC_WFC>".toList], "<FERMI_ENERGY type=>".toList, ["  0.5".toList])
  k := (["</FERMI_ENERGY>".toList], "<K-POINTS type=>".toList, ["0.0 0.0 0.0".toList, "0.5 0.0 0.0".toList])
  eig := [(["</K-POINTS>".toList, "<EIGENVALUES>".toList], "<EIG type=>".toList, ["-1.0".toList, " 1.5".toList]),
    (["</EIG>".toList], "<EIG type=>".toList, [" 0.0".toList, " 2.0".toList])]
  wfc := [(["</EIGENVALUES>".toList, "<PROJECTIONS>".toList], "<ATMWFC.1 type=>".toList, [" 0.6, 0.8".toList, " 0.0, 0.5".toList]),
    (["</ATMWFC.1>".toList], "<ATMWFC.1 type=>".toList, [" 1.0, 0.0".toList, " 0.0, 0.0".toList])]
  rest := ["</PROJECTIONS>".toList]

example : oldExample.Describes 2 1 (1 / 2) pointsExample := by
  refine ⟨⟨by decide +kernel, by decide +kernel⟩, ⟨_, rfl, by decide +kernel⟩, ⟨by decide +kernel, by decide +kernel⟩, ⟨_, rfl, by decide +kernel⟩,
    ⟨by decide +kernel, by decide +kernel⟩, ⟨_, rfl, by decide +kernel⟩, ⟨by decide +kernel, by decide +kernel⟩,
    ⟨_, "0.5".toList, rfl, by decide +kernel, by decide +kernel⟩, ⟨by decide +kernel, by decide +kernel⟩,
    .cons (by decide +kernel) (.cons (by decide +kernel) .nil), ?_, ?_, by decide +kernel⟩
  · exact .cons ⟨⟨by decide +kernel, by decide +kernel⟩, .cons ⟨"-1.0".toList, by decide +kernel, by decide +kernel⟩
        (.cons ⟨"1.5".toList, by decide +kernel, by decide +kernel⟩ .nil)⟩
      (.cons ⟨⟨by decide +kernel, by decide +kernel⟩, .cons ⟨"0.0".toList, by decide +kernel, by decide +kernel⟩
        (.cons ⟨"2.0".toList, by decide +kernel, by decide +kernel⟩ .nil)⟩ .nil)
  · exact .cons ⟨⟨by decide +kernel, by decide +kernel⟩,
        .cons ⟨"0.6".toList, "0.8".toList, by decide +kernel, by decide +kernel, " 0.6".toList, " 0.8".toList, by decide +kernel⟩
        (.cons ⟨"0.0".toList, "0.5".toList, by decide +kernel, by decide +kernel, " 0.0".toList, " 0.5".toList, by decide +kernel⟩ .nil)⟩
      (.cons ⟨⟨by decide +kernel, by decide +kernel⟩,
        .cons ⟨"1.0".toList, "0.0".toList, by decide +kernel, by decide +kernel, " 1.0".toList, " 0.0".toList, by decide +kernel⟩
        (.cons ⟨"0.0".toList, "0.0".toList, by decide +kernel, by decide +kernel, " 0.0".toList, " 0.0".toList, by decide +kernel⟩ .nil)⟩ .nil)

example : ∀ l : List Point, (l.map fun _ => [1, 0]).length = l.length ∧ ∀ r ∈ l.map fun _ => [1, 0], r.Perm (List.range 2) := by
  intro l
  refine ⟨by simp, fun r hr => ?_⟩
  obtain ⟨_, _, rfl⟩ := List.mem_map.1 hr
  decide

example : path [(0, 0, 0), (1, 0, 0), (1, 1, 0)] = some [0, 0 + dist (0, 0, 0) (1, 0, 0), 0 + dist (0, 0, 0) (1, 0, 0) + dist (1, 0, 0) (1, 1, 0)] :=
  rfl

end Verif.AtomicProj
