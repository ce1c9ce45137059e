import Verif.Pwo.Props
import Mathlib.Data.Real.Basic
import Mathlib.Algebra.BigOperators.Fin
import Mathlib.Algebra.BigOperators.Ring.Finset
import Mathlib.Tactic.IntervalCases
import Mathlib.Tactic.FinCases

/-! # Property C130: band energy from the output of `pw.x` -/

namespace Verif.Pwo

open Verif.Text

/-! ### Model -/

/-- `elphmod/el.py` 1445-1448, 1477-1479, 1485-1487: index of the last line which begins with a text. -/
def lastIndexAux (p : Str) : Nat → Option Nat → List Str → Option Nat
  | _, r, [] => r
  | i, r, l :: ls => lastIndexAux p (i + 1) (if p.isPrefixOf l then some i else r) ls

/-- Index of the last line which begins with a text; otherwise the variable is not defined. -/
def lastIndex (p : Str) (ls : List Str) : Except Exc Nat :=
  match lastIndexAux p 0 none ls with
  | some i => .ok i
  | none => .error .other

/-- `lines[i]` -/
def line (ls : List Str) (i : Nat) : Except Exc Str :=
  match ls[i]? with
  | some l => .ok l
  | none => .error .other

/-- `elphmod/el.py` 1459-1471: a k point and its weight. -/
def kPoint (l : Str) : Except Exc (List ℚ) :=
  match words l with
  | [_, _, _, _, kx, ky, kz, _, _, wk] => do
    let kx ← float kx
    let ky ← float ky
    let kz ← float kz.dropLast.dropLast
    let wk ← float wk
    .ok [kx, ky, kz, wk]
  | _ => .error .value

/-- `elphmod/el.py` 1498-1504: energies for a k point; a single value would be used for all bands. -/
def energyRow (nbnd : Nat) (ls : List Str) : Except Exc (List ℚ) :=
  match (ls.flatMap words).mapM readFloat with
  | some [x] => .ok (List.replicate nbnd x)
  | some xs => if xs.length = nbnd then .ok xs else .error .value
  | none => .error .value

/-- Result of `read_eps_nk_from_qe_pwo`. -/
structure Eps where
  energies : List (List ℚ)
  kpoints : List (List ℚ)
  occ : List (List ℝ)
  smearing : Str
  mu : ℚ
  kT : ℚ

/-- `elphmod/el.py` 1415-1512 (`read_eps_nk_from_qe_pwo`); `Ry` is the energy unit, `smearing` the function of this name in
`elphmod/occupations.py` (C39), which returns `None` for unknown names. -/
noncomputable def readEps (Ry : ℚ) (smearing : Str → Option (ℝ → ℝ)) (ls : List Str) : Except Exc Eps := do
  let i ← lastIndex "     number of k points=".toList ls
  let ws := words (← line ls i)
  let nk ← word ws 4 >>= int
  let type ← word ws 5
  let kT ← word ws 9 >>= float
  let ks ← if nk < 0 then .error .value else (List.range nk.toNat).mapM fun ii => line ls (i + 2 + ii) >>= kPoint
  let j ← lastIndex "     number of Kohn-Sham".toList ls
  let nbnd ← word (words (← line ls j)) 4 >>= int
  let m ← lastIndex "     End of".toList ls
  let n := if nbnd % 8 ≠ 0 then (nbnd / 8 + 1).toNat else (nbnd / 8).toNat
  let energies ← if nbnd < 0 then .error .value else (List.range nk.toNat).mapM fun ik => do
    energyRow nbnd.toNat (← (List.range n).mapM fun istate => line ls (m + 4 + istate + (n + 3) * ik))
  match ← readFermiLevel ls, smearing type with
  | some mu, some f => .ok ⟨energies, ks, energies.map fun r => r.map fun x => f (((x - mu) / (kT * Ry) : ℚ) : ℝ), type, mu, kT * Ry⟩
  | _, _ => .error .other

/-- `elphmod/el.py` 1550-1564, 1595-1608: values for one k point; `subset` are indices of bands. -/
noncomputable def bandRow (nbnd : Nat) (value : Nat → ℝ) (subset : Option (List Int)) : Except Exc (Nat → ℝ) :=
  (subset.getD ((List.range nbnd).map fun n : Nat => (n : Int))).foldlM (fun (r : Nat → ℝ) i =>
    match pyIndex nbnd i with
    | some n => .ok (Function.update r n (value n))
    | none => .error .other) fun _ => 0

/-- `elphmod/el.py` 1545-1570 (`eband`), sum over an array. -/
noncomputable def eband (Ry : ℚ) (d : Eps) (subset : Option (List Int)) : Except Exc ℝ := do
  let rows ← (d.energies.zip (d.kpoints.zip d.occ)).mapM fun x => do
    let r ← bandRow x.1.length (fun n => (x.1.getD n 0 : ℝ) * (x.2.1.getD 3 0 : ℚ) * x.2.2.getD n 0) subset
    .ok ((List.range x.1.length).map r).sum
  .ok (rows.sum / (Ry : ℝ))

/-- `elphmod/el.py` 1588-1612 (`demet_from_qe_pwo`), sum over an array; `entropy` is the function of this name of the smearing. -/
noncomputable def demet (Ry : ℚ) (entropy : ℝ → ℝ) (d : Eps) (subset : Option (List Int)) : Except Exc ℝ := do
  let rows ← (d.energies.zip d.kpoints).mapM fun x => do
    let r ← bandRow x.1.length (fun n => (x.2.getD 3 0 : ℚ) * (d.kT : ℝ) * -entropy (((x.1.getD n 0 - d.mu) / d.kT : ℚ) : ℝ)) subset
    .ok ((List.range x.1.length).map r).sum
  .ok (rows.sum / (Ry : ℝ))

/-! ### Specification -/

/-- Line with the number of k points and the smearing. -/
def smearLine (n : Nat) (name : String) (w : ℚ) : Str :=
  "     number of k points=".toList ++ (fmt [fInt 0 6 n] ++ (("  ".toList ++ (name.toList ++ (" smearing, width (Ry)=".toList ++
    fmt [fFixed 0 8 4 w]))) ++ ['\n']))

/-- Line with a k point and its weight (`(8x,"k(",i5,") = (",3f12.7,"), wk =",f12.7)`). -/
def kLine (t : Nat) (kx ky kz w : ℚ) : Str :=
  "        k(".toList ++ (padLeft 5 (showNat t) ++ (") = (".toList ++ (padLeft 12 (showFixed 7 kx) ++ (padLeft 12 (showFixed 7 ky) ++
    (padLeft 12 (showFixed 7 kz) ++ ("), wk =".toList ++ (padLeft 12 (showFixed 7 w) ++ ['\n'])))))))

/-- Line `i` is the last one which begins with `p`. -/
def IsLast (p : String) (ls : List Str) (i : Nat) : Prop :=
  (∃ l, ls[i]? = some l ∧ p.toList <+: l) ∧ ∀ j, i < j → ∀ l, ls[j]? = some l → ¬ p.toList <+: l

/-! ### Proofs -/

theorem lastIndexAux_eq (p : Str) (ls : List Str) (s : Nat) (r : Option Nat) (i : Nat)
    (h : ∃ l, ls[i]? = some l ∧ p <+: l) (h' : ∀ j, i < j → ∀ l, ls[j]? = some l → ¬ p <+: l) :
    lastIndexAux p s r ls = some (s + i) := by
  induction ls generalizing s r i with
  | nil => obtain ⟨l, h, -⟩ := h; simp at h
  | cons a ls ih =>
    rw [lastIndexAux]
    cases i with
    | zero =>
      obtain ⟨l, h1, h2⟩ := h
      rw [List.getElem?_cons_zero, Option.some_inj] at h1
      rw [if_pos (List.isPrefixOf_iff_prefix.2 (h1 ▸ h2))]
      have : ∀ (ls : List Str) s r, (∀ l ∈ ls, ¬ p <+: l) → lastIndexAux p s r ls = r := by
        intro ls
        induction ls with
        | nil => intros; rfl
        | cons b ls ih =>
          intro s r h
          rw [lastIndexAux, if_neg (by rw [List.isPrefixOf_iff_prefix]; exact h b (by simp)), ih _ _ fun l hl => h l (by simp [hl])]
      rw [this]
      · rfl
      · intro l hl
        obtain ⟨j, hj⟩ := List.mem_iff_getElem?.1 hl
        exact h' (j + 1) (by omega) l (by simpa using hj)
    | succ i =>
      rw [ih (s + 1) _ i (by simpa using h) fun j hj l hl => h' (j + 1) (by omega) l (by simpa using hl)]
      congr 1
      omega

theorem lastIndex_eq (p : String) (ls : List Str) (i : Nat) (h : IsLast p ls i) : lastIndex p.toList ls = .ok i := by
  rw [lastIndex, lastIndexAux_eq p.toList ls 0 none i h.1 h.2, Nat.zero_add]

theorem padLeft_append (w : Nat) (s t : Str) : padLeft w s ++ t = padLeft (w + t.length) (s ++ t) := by
  simp only [padLeft, padWith, List.length_append, List.append_assoc]
  rw [Nat.add_sub_add_right]

theorem fixed12_free (x : ℚ) (h : |x| ≤ 99) : (showFixed 7 x).length < 12 := by
  have := (showFixed_length 7 2 (by norm_num) (by norm_num) x (by norm_num; exact h)).1
  omega

theorem words_kLine (t : Nat) (ht : t < 10 ^ 4) (kx ky kz w : ℚ) (h1 : |kx| ≤ 99) (h2 : |ky| ≤ 99) (h3 : |kz| ≤ 99) (h4 : |w| ≤ 99) :
    words (kLine t kx ky kz w) = ["k(".toList, showNat t ++ [')'], ['='], ['('], showFixed 7 kx, showFixed 7 ky, showFixed 7 kz ++ "),".toList,
      "wk".toList, ['='], showFixed 7 w] := by
  have e : kLine t kx ky kz w = fmt [⟨8, 0, "k(".toList⟩, ⟨0, 6, showNat t ++ [')']⟩, ⟨1, 0, ['=']⟩, ⟨1, 0, ['(']⟩, fFixed 0 12 7 kx,
      fFixed 0 12 7 ky, ⟨0, 14, showFixed 7 kz ++ "),".toList⟩, ⟨1, 0, "wk".toList⟩, ⟨1, 0, ['=']⟩, fFixed 0 12 7 w] ++ ['\n'] := by
    have e1 := padLeft_append 5 (showNat t) [')']
    have e2 := padLeft_append 12 (showFixed 7 kz) "),".toList
    simp only [List.length_singleton, show "),".toList.length = 2 from rfl] at e1 e2
    unfold kLine fmt
    simp only [List.flatMap_cons, List.flatMap_nil, fFixed, ← e1, ← e2, List.replicate_zero, List.nil_append]
    simp [padLeft, padWith]
  have ht' : (showNat t).length ≤ 4 := showNat_length t 4 (by norm_num) ht
  have sn : Solid (showNat t ++ [')']) := ⟨by simp, fun c hc => by
    rcases List.mem_append.1 hc with hc | hc
    · exact (Digits.solid (showNat_digits t) (showNat_ne t)).2 c hc
    · rw [List.mem_singleton.1 hc]; decide⟩
  have sz : Solid (showFixed 7 kz ++ "),".toList) := ⟨by simp, fun c hc => by
    rcases List.mem_append.1 hc with hc | hc
    · exact (showFixed_solid 7 kz).2 c hc
    · have : ∀ c ∈ "),".toList, isSpace c = false := by decide
      exact this c hc⟩
  have lit : Solid "k(".toList ∧ Solid "wk".toList ∧ Solid ['='] ∧ Solid ['('] := by
    unfold Solid
    decide
  rw [e, words_fmt]
  · rfl
  · simp only [List.mem_cons, List.not_mem_nil, or_false, forall_eq_or_imp, forall_eq, fFixed]
    exact ⟨lit.1, sn, lit.2.2.1, lit.2.2.2, showFixed_solid _ _, showFixed_solid _ _, sz, lit.2.1, lit.2.2.1, showFixed_solid _ _⟩
  · simp only [List.tail_cons, List.mem_cons, List.not_mem_nil, or_false, forall_eq_or_imp, forall_eq, fFixed, Field.Free]
    refine ⟨Or.inr ?_, Or.inl Nat.one_pos, Or.inl Nat.one_pos, Or.inr (fixed12_free kx h1), Or.inr (fixed12_free ky h2), Or.inr ?_,
      Or.inl Nat.one_pos, Or.inl Nat.one_pos, Or.inr (fixed12_free w h4)⟩
    · simp
      omega
    · have := fixed12_free kz h3
      simp
      omega

theorem kPoint_kLine (t : Nat) (ht : t < 10 ^ 4) (kx ky kz w : ℚ) (h1 : |kx| ≤ 99) (h2 : |ky| ≤ 99) (h3 : |kz| ≤ 99) (h4 : |w| ≤ 99) :
    kPoint (kLine t kx ky kz w) = .ok [roundTo 7 kx, roundTo 7 ky, roundTo 7 kz, roundTo 7 w] := by
  have e : (showFixed 7 kz ++ "),".toList).dropLast.dropLast = showFixed 7 kz := by
    rw [show "),".toList = [')'] ++ [','] from rfl, ← List.append_assoc, List.dropLast_concat, List.dropLast_concat]
  rw [kPoint, words_kLine t ht kx ky kz w h1 h2 h3 h4]
  simp only
  rw [e, float_fixed 7 (by norm_num), float_fixed 7 (by norm_num), float_fixed 7 (by norm_num), float_fixed 7 (by norm_num)]
  rfl

theorem words_smearLine (n : Nat) (hn : n < 10 ^ 5) (name : String) (hs : Solid name.toList) (w : ℚ) (h0 : 0 ≤ w) (h1 : w ≤ 99) :
    words (smearLine n name w) = ["number".toList, "of".toList, "k".toList, "points=".toList, showInt n, name.toList, "smearing,".toList,
      "width".toList, "(Ry)=".toList, showFixed 4 w] := by
  have e : smearLine n name w = fmt [⟨5, 0, "number".toList⟩, ⟨1, 0, "of".toList⟩, ⟨1, 0, "k".toList⟩, ⟨1, 0, "points=".toList⟩,
      fInt 0 6 n, ⟨2, 0, name.toList⟩, ⟨1, 0, "smearing,".toList⟩, ⟨1, 0, "width".toList⟩, ⟨1, 0, "(Ry)=".toList⟩, fFixed 0 8 4 w] ++
      ['\n'] := by
    unfold smearLine fmt
    simp [padLeft, padWith, fInt, fFixed]
  have hw : (showFixed 4 w).length < 8 := by
    have := (showFixed_length 4 2 (by norm_num) (by norm_num) w (by rw [abs_of_nonneg h0]; norm_num; exact h1)).2 h0
    omega
  have lit : Solid "number".toList ∧ Solid "of".toList ∧ Solid "k".toList ∧ Solid "points=".toList ∧ Solid "smearing,".toList ∧
      Solid "width".toList ∧ Solid "(Ry)=".toList := by
    unfold Solid
    decide
  rw [e, words_fmt]
  · rfl
  · simp only [List.mem_cons, List.not_mem_nil, or_false, forall_eq_or_imp, forall_eq, fFixed, fInt]
    exact ⟨lit.1, lit.2.1, lit.2.2.1, lit.2.2.2.1, showInt_solid _, hs, lit.2.2.2.2.1, lit.2.2.2.2.2.1, lit.2.2.2.2.2.2,
      showFixed_solid _ _⟩
  · simp only [List.tail_cons, List.mem_cons, List.not_mem_nil, or_false, forall_eq_or_imp, forall_eq, fFixed]
    exact ⟨Or.inl Nat.one_pos, Or.inl Nat.one_pos, Or.inl Nat.one_pos, free_kpoints n hn, Or.inl Nat.two_pos, Or.inl Nat.one_pos,
      Or.inl Nat.one_pos, Or.inl Nat.one_pos, Or.inr hw⟩

theorem words_row_text (l : List ℚ) (h : ∀ x ∈ l, -99 ≤ x ∧ x ≤ 999) :
    words ("  ".toList ++ (fmt (l.map (fFixed 0 9 4)) ++ ['\n'])) = l.map (showFixed 4) := by
  rcases eq_or_ne l [] with rfl | hl
  · rfl
  rw [words_text _ _ _ (by simpa using hl) (by simp [fFixed, showFixed_solid]) _ newline_end]
  · have : words ("  ".toList) = [] := by decide
    rw [this]
    simp [fFixed, words, wordsAux, isSpace]
  · intro f hf
    obtain ⟨x, hx, rfl⟩ := List.mem_map.1 hf
    exact free_band x (h x hx)

theorem flatMap_chunks {β : Type} (e : List β) (m : Nat) : ((List.range m).flatMap fun r => (e.drop (8 * r)).take 8) = e.take (8 * m) := by
  induction m with
  | zero => simp
  | succ m ih => rw [List.range_succ, List.flatMap_append, ih, List.flatMap_singleton, Nat.mul_succ, List.take_add]

theorem words_rows (e : List ℚ) (h : ∀ x ∈ e, -99 ≤ x ∧ x ≤ 999) : (rows e).flatMap words = e.map (showFixed 4) := by
  rw [rows, List.flatMap_map]
  have : ((List.range ((e.length + 7) / 8)).flatMap fun r => words ("  ".toList ++ (fmt (((e.drop (8 * r)).take 8).map (fFixed 0 9 4)) ++
      ['\n']))) = (List.range ((e.length + 7) / 8)).flatMap fun r => ((e.drop (8 * r)).take 8).map (showFixed 4) := by
    congr 1
    funext r
    exact words_row_text _ fun x hx => h x (List.mem_of_mem_drop (List.mem_of_mem_take hx))
  rw [this, ← List.map_flatMap, flatMap_chunks, List.take_of_length_le (by omega)]

theorem energyRow_rows (e : List ℚ) (h : ∀ x ∈ e, -99 ≤ x ∧ x ≤ 999) : energyRow e.length (rows e) = .ok (e.map (roundTo 4)) := by
  rw [energyRow, words_rows e h, mapM_map (showFixed 4) readFloat (roundTo 4) e fun x _ => readFloat_showFixed 4 (by norm_num) x]
  rcases e with _ | ⟨x, _ | ⟨y, e⟩⟩
  · rfl
  · rfl
  · simp

theorem bind_ok {β γ : Type} (x : β) (f : β → Except Exc γ) : (Except.ok x >>= f) = f x := rfl

theorem mapM_ok {β γ : Type} (l : List β) (f : β → Except Exc γ) (g : β → γ) (h : ∀ x ∈ l, f x = .ok (g x)) : l.mapM f = .ok (l.map g) := by
  induction l with
  | nil => rfl
  | cons x l ih =>
    rw [List.mapM_cons, h x (by simp), ih fun x hx => h x (by simp [hx])]
    rfl

theorem line_ok (ls : List Str) (i : Nat) (l : Str) (h : ls[i]? = some l) : line ls i = .ok l := by rw [line, h]

/-- **C130**: `read_eps_nk_from_qe_pwo` returns the energies, k points and weights, the smearing and the Fermi level of the (last)
self-consistent calculation in the output, and the occupations which follow from them. -/
theorem C130_read (Ry : ℚ) (smearing : Str → Option (ℝ → ℝ)) (l : List Item) (hv : ∀ i ∈ l, i.Valid) (hp : ∀ i ∈ l, i.Plain)
    (i j m nk nb : Nat) (name : String) (width : ℚ) (k : Nat → ℚ × ℚ × ℚ × ℚ) (e : Nat → List ℚ) (mu : ℚ) (f : ℝ → ℝ)
    (hi : IsLast "     number of k points=" (output l) i) (hi' : (output l)[i]? = some (smearLine nk name width))
    (hs : Solid name.toList) (hw : 0 ≤ width ∧ width ≤ 99)
    (hk : ∀ t < nk, (output l)[i + 2 + t]? = some (kLine (t + 1) (k t).1 (k t).2.1 (k t).2.2.1 (k t).2.2.2) ∧ |(k t).1| ≤ 99 ∧
      |(k t).2.1| ≤ 99 ∧ |(k t).2.2.1| ≤ 99 ∧ |(k t).2.2.2| ≤ 99)
    (hnk : nk < 10 ^ 4 - 1)
    (hj : IsLast "     number of Kohn-Sham" (output l) j)
    (hj' : (output l)[j]? = some (numLine "     number of Kohn-Sham states=" (fInt 1 12 nb) ""))
    (hm : IsLast "     End of" (output l) m)
    (he : ∀ ik < nk, (e ik).length = nb ∧ (∀ x ∈ e ik, -99 ≤ x ∧ x ≤ 999) ∧
      ∀ r < (rows (e ik)).length, (output l)[m + 4 + r + ((nb + 7) / 8 + 3) * ik]? = (rows (e ik))[r]?)
    (hmu : last Item.level? l = some mu) (hf : smearing name.toList = some f) :
    ∃ d, readEps Ry smearing (output l) = .ok d ∧
      d.energies = (List.range nk).map (fun ik => (e ik).map (roundTo 4)) ∧
      d.kpoints = (List.range nk).map (fun t => [roundTo 7 (k t).1, roundTo 7 (k t).2.1, roundTo 7 (k t).2.2.1, roundTo 7 (k t).2.2.2]) ∧
      d.occ = (List.range nk).map (fun ik => (e ik).map fun x => f ((roundTo 4 x - mu) / (roundTo 4 width * Ry))) ∧
      d.smearing = name.toList ∧ d.mu = mu ∧ d.kT = roundTo 4 width * Ry := by
  have w := words_smearLine nk (by omega) name hs width hw.1 hw.2
  have h1 := mapM_ok (List.range nk) (fun ii => line (output l) (i + 2 + ii) >>= kPoint)
    (fun t => [roundTo 7 (k t).1, roundTo 7 (k t).2.1, roundTo 7 (k t).2.2.1, roundTo 7 (k t).2.2.2]) (by
      intro t ht
      obtain ⟨k0, k1, k2, k3, k4⟩ := hk t (List.mem_range.1 ht)
      rw [line_ok _ _ _ k0]
      exact kPoint_kLine (t + 1) (by have := List.mem_range.1 ht; omega) _ _ _ _ k1 k2 k3 k4)
  have hn : (if (nb : Int) % 8 ≠ 0 then ((nb : Int) / 8 + 1).toNat else ((nb : Int) / 8).toNat) = (nb + 7) / 8 := by
    split <;> omega
  have h2 := mapM_ok (List.range nk) (fun ik => (List.range ((nb + 7) / 8)).mapM (fun istate => line (output l)
      (m + 4 + istate + ((nb + 7) / 8 + 3) * ik)) >>= energyRow nb) (fun ik => (e ik).map (roundTo 4)) (by
    intro ik hik
    obtain ⟨e1, e2, e3⟩ := he ik (List.mem_range.1 hik)
    have el : (rows (e ik)).length = (nb + 7) / 8 := by simp [rows, e1]
    have := mapM_ok (List.range ((nb + 7) / 8)) (fun istate => line (output l) (m + 4 + istate + ((nb + 7) / 8 + 3) * ik))
      (fun r => (rows (e ik)).getD r []) (by
        intro r hr
        have hr : r < (rows (e ik)).length := by rw [el]; exact List.mem_range.1 hr
        apply line_ok
        rw [e3 r hr, List.getD_eq_getElem?_getD, List.getElem?_eq_getElem hr]
        rfl)
    rw [this]
    have e4 : (List.range ((nb + 7) / 8)).map (fun r => (rows (e ik)).getD r []) = rows (e ik) := by
      apply List.ext_getElem
      · simp [el]
      · intro r h1 h2
        simp [List.getD_eq_getElem?_getD, h2]
    rw [e4]
    have := energyRow_rows (e ik) e2
    rwa [e1] at this)
  have w4 : (word (words (smearLine nk name width)) 4 >>= int) = .ok (nk : Int) := by
    rw [w]
    exact int_show nk
  have w5 : word (words (smearLine nk name width)) 5 = .ok name.toList := by
    rw [w]
    rfl
  have w9 : (word (words (smearLine nk name width)) 9 >>= float) = .ok (roundTo 4 width) := by
    rw [w]
    exact float_fixed 4 (by norm_num) width
  have wb : (word (words (numLine "     number of Kohn-Sham states=" (fInt 1 12 nb) "")) 4 >>= int) = .ok (nb : Int) :=
    intAt_at "     number of Kohn-Sham states=" "" 1 12 nb (Or.inl Nat.one_pos) (Or.inl rfl) 4 (by decide +kernel)
  refine ⟨⟨(List.range nk).map (fun ik => (e ik).map (roundTo 4)), _, ((List.range nk).map (fun ik => (e ik).map (roundTo 4))).map fun r =>
    r.map fun x => f (((x - mu) / (roundTo 4 width * Ry) : ℚ) : ℝ), name.toList, mu, roundTo 4 width * Ry⟩, ?_, rfl, rfl, ?_, rfl, rfl,
    rfl⟩
  · rw [readEps, lastIndex_eq _ _ _ hi, lastIndex_eq _ _ _ hj, lastIndex_eq _ _ _ hm, C129_level l hv hp, hmu]
    simp only [bind_ok, line_ok _ _ _ hi', line_ok _ _ _ hj', w4, w5, w9, wb, hn, Int.toNat_natCast]
    rw [if_neg (by omega), h1, bind_ok, if_neg (by omega), h2, bind_ok]
    simp only [hf]
  · show List.map _ _ = _
    rw [List.map_map]
    apply List.map_congr_left
    intro ik _
    simp

/-! ### `eband` -/

theorem bandRow_ok (nb : Nat) (v : Nat → ℝ) (subset : List Int) (h : ∀ i ∈ subset, pyIndex nb i ≠ none) :
    ∃ r, bandRow nb v (some subset) = .ok r ∧ ∀ n, r n = if n ∈ subset.filterMap (pyIndex nb) then v n else 0 := by
  rw [bandRow, Option.getD_some]
  have key : ∀ (s : List Int) (r0 : Nat → ℝ), (∀ i ∈ s, pyIndex nb i ≠ none) → ∃ r, s.foldlM (fun (r : Nat → ℝ) i =>
      match pyIndex nb i with
      | some n => Except.ok (ε := Exc) (Function.update r n (v n))
      | none => .error .other) r0 = .ok r ∧ ∀ n, r n = if n ∈ s.filterMap (pyIndex nb) then v n else r0 n := by
    intro s
    induction s with
    | nil => exact fun r0 _ => ⟨r0, rfl, fun n => by simp⟩
    | cons i s ih =>
      intro r0 h
      obtain ⟨n, hn⟩ := Option.ne_none_iff_exists'.1 (h i (by simp))
      obtain ⟨r, h1, h2⟩ := ih (Function.update r0 n (v n)) fun i hi => h i (by simp [hi])
      refine ⟨r, ?_, fun m => ?_⟩
      · rw [List.foldlM_cons, hn]
        exact h1
      · rw [h2 m, List.filterMap_cons, hn]
        simp only [List.mem_cons]
        by_cases hm : m ∈ s.filterMap (pyIndex nb)
        · rw [if_pos hm, if_pos (Or.inr hm)]
        · rw [if_neg hm]
          by_cases hmn : m = n
          · rw [hmn, Function.update_self, if_pos (Or.inl rfl)]
          · rw [Function.update_of_ne hmn, if_neg (by tauto)]
  exact key subset _ h

theorem bandRow_sum (nb : Nat) (v : Nat → ℝ) (subset : Option (List Int)) (hs : ∀ s, subset = some s → ∀ i ∈ s, -(nb : Int) ≤ i ∧ i < nb) :
    ∃ r, bandRow nb v subset = .ok r ∧ ((List.range nb).map r).sum = ∑ n ∈ (Finset.range nb).filter fun n : Nat => ∀ s, subset = some s →
      (n : Int) ∈ s ∨ (n : Int) - nb ∈ s, v n := by
  have hpy : ∀ i : Int, -(nb : Int) ≤ i ∧ i < nb → pyIndex nb i ≠ none := by
    intro i hi
    unfold pyIndex
    split
    · simp
    · rw [if_pos (by omega)]
      simp
  obtain ⟨r, h1, h2⟩ := bandRow_ok nb v (subset.getD ((List.range nb).map fun n : Nat => (n : Int))) (by
      intro i hi
      apply hpy
      cases subset with
      | none =>
        obtain ⟨n, hn, rfl⟩ := List.mem_map.1 hi
        have := List.mem_range.1 hn
        omega
      | some s => exact hs s rfl i hi)
  refine ⟨r, ?_, ?_⟩
  · rw [← h1]
    cases subset <;> rfl
  · rw [Finset.sum_filter, Finset.sum_range, ← List.sum_ofFn]
    congr 1
    apply List.ext_getElem
    · simp
    · intro n hn hn'
      have hn : n < nb := by simpa using hn
      rw [List.getElem_map, List.getElem_range, List.getElem_ofFn, h2 n]
      refine if_congr ?_ rfl rfl
      rw [List.mem_filterMap]
      have key : ∀ i : Int, pyIndex nb i = some n ↔ i = n ∨ i = (n : Int) - nb := by
        intro i
        unfold pyIndex
        split
        · rw [Option.some_inj]
          omega
        · split
          · rw [Option.some_inj]
            omega
          · simp
            omega
      simp only [key]
      cases subset with
      | none =>
        simp only [reduceCtorEq, false_implies, implies_true, iff_true]
        exact ⟨n, by simpa using hn, Or.inl rfl⟩
      | some s =>
        simp only [Option.some_inj, forall_eq', Option.getD_some]
        constructor
        · rintro ⟨i, hi, rfl | rfl⟩
          · exact Or.inl hi
          · exact Or.inr hi
        · rintro (h | h)
          · exact ⟨_, h, Or.inl rfl⟩
          · exact ⟨_, h, Or.inr rfl⟩

theorem rows_sum (g : Nat → ℝ) (nk : Nat) : ((List.range nk).map g).sum = ∑ ik ∈ Finset.range nk, g ik := by
  rw [Finset.sum_range, ← List.sum_ofFn]
  congr 1
  apply List.ext_getElem <;> simp

/-- **C130**: `eband` is the sum of the energies of the selected bands, weighted with the weights of the k points and the occupations.
Bands which are selected repeatedly (possibly with negative indices) count once. -/
theorem C130_eband (Ry : ℚ) (d : Eps) (nk nb : Nat) (e : Nat → Nat → ℚ) (w : Nat → ℚ) (f : Nat → Nat → ℝ)
    (he : d.energies = (List.range nk).map fun ik => (List.range nb).map (e ik))
    (hw : ∃ kx ky kz : Nat → ℚ, d.kpoints = (List.range nk).map fun ik => [kx ik, ky ik, kz ik, w ik])
    (ho : d.occ = (List.range nk).map fun ik => (List.range nb).map (f ik)) (subset : Option (List Int))
    (hs : ∀ s, subset = some s → ∀ i ∈ s, -(nb : Int) ≤ i ∧ i < nb) :
    eband Ry d subset = .ok ((∑ ik ∈ Finset.range nk, ∑ n ∈ (Finset.range nb).filter fun n : Nat => ∀ s, subset = some s →
      (n : Int) ∈ s ∨ (n : Int) - nb ∈ s, (e ik n : ℝ) * w ik * f ik n) / Ry) := by
  obtain ⟨kx, ky, kz, hw⟩ := hw
  rw [eband, he, hw, ho, List.zip_map', List.zip_map', List.mapM_map]
  rw [mapM_ok (List.range nk) _ (fun ik => ∑ n ∈ (Finset.range nb).filter fun n : Nat => ∀ s, subset = some s →
        (n : Int) ∈ s ∨ (n : Int) - nb ∈ s, (e ik n : ℝ) * w ik * f ik n)]
  · rw [bind_ok, rows_sum]
  · intro ik _
    obtain ⟨r, h1, h2⟩ := bandRow_sum nb (fun n => (((List.range nb).map (e ik)).getD n 0 : ℝ) * w ik * ((List.range nb).map (f ik)).getD n 0)
      subset hs
    simp only [Function.comp]
    rw [show [kx ik, ky ik, kz ik, w ik].getD 3 0 = w ik from rfl, List.length_map, List.length_range, h1, bind_ok, h2]
    congr 1
    apply Finset.sum_congr rfl
    intro n hn
    have hn := Finset.mem_range.1 (Finset.mem_filter.1 hn).1
    simp [List.getD_eq_getElem?_getD, hn]

/-- **C130**: `demet_from_qe_pwo` is minus the sum of the entropies of the selected bands, weighted with the weights of the k points, times
the smearing. -/
theorem C130_demet (Ry : ℚ) (entropy : ℝ → ℝ) (d : Eps) (nk nb : Nat) (e : Nat → Nat → ℚ) (w : Nat → ℚ)
    (he : d.energies = (List.range nk).map fun ik => (List.range nb).map (e ik))
    (hw : ∃ kx ky kz : Nat → ℚ, d.kpoints = (List.range nk).map fun ik => [kx ik, ky ik, kz ik, w ik]) (subset : Option (List Int))
    (hs : ∀ s, subset = some s → ∀ i ∈ s, -(nb : Int) ≤ i ∧ i < nb) :
    demet Ry entropy d subset = .ok (-(d.kT * ∑ ik ∈ Finset.range nk, w ik * ∑ n ∈ (Finset.range nb).filter fun n : Nat => ∀ s, subset = some s →
      (n : Int) ∈ s ∨ (n : Int) - nb ∈ s, entropy ((e ik n - d.mu) / d.kT)) / Ry) := by
  obtain ⟨kx, ky, kz, hw⟩ := hw
  rw [demet, he, hw, List.zip_map', List.mapM_map]
  rw [mapM_ok (List.range nk) _ (fun ik => -(d.kT * (w ik * ∑ n ∈ (Finset.range nb).filter fun n : Nat => ∀ s, subset = some s →
        (n : Int) ∈ s ∨ (n : Int) - nb ∈ s, entropy ((e ik n - d.mu) / d.kT))))]
  · rw [bind_ok, rows_sum, Finset.sum_neg_distrib, Finset.mul_sum]
  · intro ik _
    obtain ⟨r, h1, h2⟩ := bandRow_sum nb (fun n => (w ik : ℝ) * (d.kT : ℝ) * -entropy (((((List.range nb).map (e ik)).getD n 0 - d.mu) / d.kT : ℚ)
      : ℝ)) subset hs
    simp only [Function.comp]
    rw [show [kx ik, ky ik, kz ik, w ik].getD 3 0 = w ik from rfl, List.length_map, List.length_range, h1, bind_ok, h2]
    congr 1
    rw [Finset.mul_sum, Finset.mul_sum, ← Finset.sum_neg_distrib]
    apply Finset.sum_congr rfl
    intro n hn
    have hn := Finset.mem_range.1 (Finset.mem_filter.1 hn).1
    simp [List.getD_eq_getElem?_getD, hn]
    ring

/-! ### Examples -/

theorem isLast_of (p : String) (ls : List Str) (i : Nat) (h : ∃ l ∈ ls[i]?, p.toList <+: l) (h' : ∀ l ∈ ls.drop (i + 1), ¬ p.toList <+: l) :
    IsLast p ls i := by
  obtain ⟨l, h1, h2⟩ := h
  refine ⟨⟨l, h1, h2⟩, fun j hj l hl => h' l (List.mem_iff_getElem?.2 ⟨j - (i + 1), ?_⟩)⟩
  rw [List.getElem?_drop, show i + 1 + (j - (i + 1)) = j by omega]
  exact hl

/-- Output for two k points and two states. -/
def metal : List Item :=
  [.states 2, .kpoints 2 "  Fermi-Dirac smearing, width (Ry)=  0.0050", .other "                       cart. coord. in units 2pi/alat\n".toList,
    .other (kLine 1 0 0 0 (1 / 2)), .other (kLine 2 (-1 / 2) 0 0 (3 / 2)),
    .bands [((['\n'], "          k = 0.0000 0.0000 0.0000 (   113 PWs)   bands (ev):\n".toList, ['\n']), [-10, 2]),
      ((['\n'], ['\n'], ['\n']), [-9, 3])],
    .fermi (3 / 2), .energy (-22)]

theorem metal_valid : ∀ i ∈ metal, i.Valid := by
  intro i hi
  simp only [metal, List.mem_cons, List.not_mem_nil, or_false] at hi
  rcases hi with rfl | rfl | rfl | rfl | rfl | rfl | rfl | rfl
  · norm_num [Item.Valid]
  · exact ⟨by norm_num, Or.inr ⟨" Fermi-Dirac smearing, width (Ry)=  0.0050", by decide⟩, by decide +kernel, by decide +kernel, by decide +kernel,
      by decide +kernel⟩
  · exact ⟨by decide +kernel, by decide +kernel⟩
  · exact ⟨by decide +kernel, by decide +kernel⟩
  · exact ⟨by decide +kernel, by decide +kernel⟩
  · norm_num [Item.Valid]
  · norm_num [Item.Valid]
  · norm_num [Item.Valid]

theorem metal_plain : ∀ i ∈ metal, i.Plain := by
  intro i hi
  simp only [metal, List.mem_cons, List.not_mem_nil, or_false] at hi
  rcases hi with rfl | rfl | rfl | rfl | rfl | rfl | rfl | rfl <;> first | trivial | skip
  exact fun r hr s hs => by fin_cases hr <;> fin_cases hs <;> decide +kernel

example (Ry : ℚ) (f : ℝ → ℝ) : ∃ d, readEps Ry (fun s => if s = "Fermi-Dirac".toList then some f else none) (output metal) = .ok d ∧
    d.energies = [[-10, 2], [-9, 3]] ∧ d.kpoints = [[0, 0, 0, 1 / 2], [-1 / 2, 0, 0, 3 / 2]] ∧ d.mu = 3 / 2 ∧ d.kT = 1 / 200 * Ry := by
  obtain ⟨d, h0, h1, h2, -, -, h3, h4⟩ := C130_read Ry (fun s => if s = "Fermi-Dirac".toList then some f else none) metal metal_valid metal_plain
    1 0 5 2 2 "Fermi-Dirac" (1 / 200) (fun t => if t = 0 then (0, 0, 0, 1 / 2) else (-1 / 2, 0, 0, 3 / 2))
    (fun t => if t = 0 then [-10, 2] else [-9, 3]) (3 / 2) f
    (isLast_of _ _ _ ⟨_, rfl, by decide +kernel⟩ (by decide +kernel)) (by decide +kernel) (by unfold Solid; decide) (by norm_num)
    (by
      intro t ht
      interval_cases t
      · exact ⟨rfl, by norm_num, by norm_num, by norm_num, by norm_num⟩
      · exact ⟨rfl, by norm_num, by norm_num, by norm_num, by norm_num⟩)
    (by norm_num) (isLast_of _ _ _ ⟨_, rfl, by decide +kernel⟩ (by decide +kernel)) rfl
    (isLast_of _ _ _ ⟨_, rfl, by decide +kernel⟩ (by decide +kernel))
    (by
      intro t ht
      interval_cases t
      · exact ⟨rfl, by norm_num, by decide +kernel⟩
      · exact ⟨rfl, by norm_num, by decide +kernel⟩)
    (by decide +kernel) (if_pos rfl)
  refine ⟨d, h0, ?_, ?_, h3, ?_⟩
  · rw [h1]
    decide +kernel
  · rw [h2]
    decide +kernel
  · rw [h4, show roundTo 4 (1 / 200) = 1 / 200 by decide +kernel]

/-- The first of two bands is selected twice. -/
example (Ry : ℚ) (f : Nat → Nat → ℝ) : eband Ry ⟨[[-10, 2], [-9, 3]], [[0, 0, 0, 1 / 2], [0, 0, 0, 3 / 2]], [[f 0 0, f 0 1], [f 1 0, f 1 1]],
    [], 0, 1⟩ (some [0, -2]) = .ok ((-5 * f 0 0 + -27 / 2 * f 1 0) / Ry) := by
  rw [C130_eband Ry _ 2 2 (fun k n => if k = 0 then if n = 0 then -10 else 2 else if n = 0 then -9 else 3) (fun k => if k = 0 then 1 / 2 else 3 / 2)
    f rfl ⟨fun _ => 0, fun _ => 0, fun _ => 0, rfl⟩ rfl (some [0, -2]) (by simp)]
  have e : (Finset.range 2).filter (fun n : Nat => ∀ s, some [0, -2] = some s → (n : Int) ∈ s ∨ (n : Int) - (2 : Nat) ∈ s) = {0} := by
    ext n
    simp only [Option.some_inj, forall_eq', Finset.mem_filter, Finset.mem_range, Finset.mem_singleton, List.mem_cons, List.not_mem_nil, or_false]
    omega
  rw [e]
  simp [Finset.sum_range_succ]
  norm_num

example (Ry : ℚ) (s : ℝ → ℝ) : demet Ry s ⟨[[-10, 2], [-9, 3]], [[0, 0, 0, 1 / 2], [0, 0, 0, 3 / 2]], [], [], 0, 1⟩ (some [1]) =
    .ok (-(1 / 2 * s 2 + 3 / 2 * s 3) / Ry) := by
  rw [C130_demet Ry s _ 2 2 (fun k n => if k = 0 then if n = 0 then -10 else 2 else if n = 0 then -9 else 3) (fun k => if k = 0 then 1 / 2 else 3 / 2)
    rfl ⟨fun _ => 0, fun _ => 0, fun _ => 0, rfl⟩ (some [1]) (by simp)]
  have e : (Finset.range 2).filter (fun n : Nat => ∀ s, some [1] = some s → (n : Int) ∈ s ∨ (n : Int) - (2 : Nat) ∈ s) = {1} := by
    ext n
    simp only [Option.some_inj, forall_eq', Finset.mem_filter, Finset.mem_range, Finset.mem_singleton, List.mem_cons, List.not_mem_nil, or_false]
    omega
  rw [e]
  simp [Finset.sum_range_succ]

end Verif.Pwo
