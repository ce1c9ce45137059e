import Verif.Split.Model
import Verif.Text.Lemmas
import Mathlib.Data.List.Forall2
import Mathlib.Data.List.Infix
import Mathlib.Data.List.TakeWhile

/-!
# The distributive law of `misc.split` (C11)
-/

namespace Verif.Split

open Verif.Text (Str isSpace showNat digitVal digitChar readDigits Digits showNat_digits showNat_ne digitVal_digitChar
  readDigits_showNat takeWhile_append)

/-! ### Specification -/

mutual
/-- Separated list. -/
inductive Alts
  | one (i : Item)
  | cons (i : Item) (r : Alts)

/-- Sequence of characters and brackets. -/
inductive Item
  | nil
  | chr (c : Char) (r : Item)
  | grp (a : Alts) (r : Item)
end

mutual
/-- Written expression. -/
def Alts.text : Alts → Str
  | .one i => i.text
  | .cons i r => i.text ++ ',' :: r.text

/-- Written product. -/
def Item.text : Item → Str
  | .nil => []
  | .chr c r => c :: r.text
  | .grp a r => '{' :: (a.text ++ '}' :: r.text)
end

mutual
/-- Characters that do not have a special meaning. -/
def Alts.Plain : Alts → Prop
  | .one i => i.Plain
  | .cons i r => i.Plain ∧ r.Plain

/-- Characters that do not have a special meaning. -/
def Item.Plain : Item → Prop
  | .nil => True
  | .chr c r => c ∉ ['{', '}', ',', '<', '\n'] ∧ r.Plain
  | .grp a r => a.Plain ∧ r.Plain
end

/-- White space at the beginning is ignored. -/
def Item.trimLeft : Item → Item
  | .nil => .nil
  | .chr c r => if isSpace c then r.trimLeft else .chr c r
  | .grp a r => .grp a r

/-- White space at the end is ignored. -/
def Item.trimRight : Item → Item
  | .nil => .nil
  | .chr c r => match r.trimRight with
    | .nil => if isSpace c then .nil else .chr c .nil
    | .chr d r' => .chr c (.chr d r')
    | .grp a r' => .chr c (.grp a r')
  | .grp a r => .grp a r.trimRight

/-- White space around items is ignored. -/
def Item.trim (i : Item) : Item := i.trimLeft.trimRight

mutual
/-- Brackets. -/
def Alts.size : Alts → Nat
  | .one i => i.size
  | .cons i r => i.size + r.size

/-- Brackets. -/
def Item.size : Item → Nat
  | .nil => 0
  | .chr _ r => r.size
  | .grp a r => 1 + a.size + r.size
end

/-- Items of a list. -/
def Alts.items : Alts → List Item
  | .one i => [i]
  | .cons i r => i :: r.items

/-- Concatenation. -/
def Item.append : Item → Item → Item
  | .nil, j => j
  | .chr c r, j => .chr c (r.append j)
  | .grp a r, j => .grp a (r.append j)

mutual
/-- Number of nodes. -/
def Alts.nodes : Alts → Nat
  | .one i => i.nodes + 1
  | .cons i r => i.nodes + r.nodes + 1

/-- Number of nodes. -/
def Item.nodes : Item → Nat
  | .nil => 1
  | .chr _ r => r.nodes + 1
  | .grp a r => a.nodes + r.nodes + 1
end

theorem trimLeft_nodes : ∀ i : Item, i.trimLeft.nodes ≤ i.nodes
  | .nil => le_rfl
  | .chr c r => by
    unfold Item.trimLeft
    split
    · have := trimLeft_nodes r
      simp only [Item.nodes]
      omega
    · exact le_rfl
  | .grp a r => le_rfl

theorem trimRight_nodes : ∀ i : Item, i.trimRight.nodes ≤ i.nodes
  | .nil => le_rfl
  | .chr c r => by
    have h := trimRight_nodes r
    unfold Item.trimRight
    split
    · split
      · simp [Item.nodes]
      · rename_i hr _
        rw [hr] at h
        simp only [Item.nodes] at h ⊢
        omega
    · rename_i d r' hr
      rw [hr] at h
      simp only [Item.nodes] at h ⊢
      omega
    · rename_i d r' hr
      rw [hr] at h
      simp only [Item.nodes] at h ⊢
      omega
  | .grp a r => by
    have := trimRight_nodes r
    simp only [Item.trimRight, Item.nodes]
    omega

theorem trim_nodes (i : Item) : i.trim.nodes ≤ i.nodes := (trimRight_nodes _).trans (trimLeft_nodes i)

mutual
/-- Alternatives of a list: union of the alternatives of its items. -/
def Alts.expand (a : Alts) : List Str :=
  match a with
  | .one i => i.trim.expand
  | .cons i r => i.trim.expand ++ r.expand
termination_by a.nodes
decreasing_by
  all_goals
    have := trim_nodes i
    simp only [Alts.nodes]
    omega

/-- Alternatives of a product: all concatenations, where the last factor varies slowest. -/
def Item.expand (i : Item) : List Str :=
  match i with
  | .nil => [[]]
  | .chr c r => r.expand.map (c :: ·)
  | .grp a r => r.expand.flatMap fun t => a.expand.map (· ++ t)
termination_by i.nodes
decreasing_by
  all_goals
    simp only [Item.nodes]
    omega
end

/-! ### Expressions with packed brackets -/

mutual
/-- Text of a list, where brackets may have been replaced by groups (if `raw`, not all of them have to be replaced). -/
def RepA (G : List Str) (raw : Bool) : Alts → Str → Prop
  | .one i, s => RepI G raw i s
  | .cons i r, s => ∃ s1 s2, s = s1 ++ ',' :: s2 ∧ RepI G raw i s1 ∧ RepA G raw r s2

/-- Text of a product, where brackets may have been replaced by groups. -/
def RepI (G : List Str) (raw : Bool) : Item → Str → Prop
  | .nil, s => s = []
  | .chr c r, s => ∃ s', s = c :: s' ∧ c ∉ ['{', '}', ',', '<', '\n'] ∧ RepI G raw r s'
  | .grp a r, s => ∃ s' body, RepI G raw r s' ∧ ((raw = true ∧ s = '{' :: (body ++ '}' :: s') ∧ RepA G true a body) ∨
      ∃ n, G[n]? = some body ∧ s = '<' :: (showNat n ++ '>' :: s') ∧ RepA G false a body)
end

mutual
theorem repA_text (G : List Str) : ∀ a : Alts, a.Plain → RepA G true a a.text
  | .one i, h => repI_text G i h
  | .cons i r, h => ⟨i.text, r.text, rfl, repI_text G i h.1, repA_text G r h.2⟩

theorem repI_text (G : List Str) : ∀ i : Item, i.Plain → RepI G true i i.text
  | .nil, _ => rfl
  | .chr c r, h => ⟨r.text, rfl, h.1, repI_text G r h.2⟩
  | .grp a r, h => ⟨r.text, a.text, repI_text G r h.2, Or.inl ⟨rfl, rfl, repA_text G a h.1⟩⟩
end

theorem prefix_getElem? {G G' : List Str} (h : G <+: G') {n : Nat} {b : Str} (hn : G[n]? = some b) : G'[n]? = some b := by
  obtain ⟨t, rfl⟩ := h
  rw [List.getElem?_append_left (List.getElem?_eq_some_iff.1 hn).1, hn]

mutual
theorem repA_mono {G G' : List Str} (h : G <+: G') (raw : Bool) : ∀ (a : Alts) (s : Str), RepA G raw a s → RepA G' raw a s
  | .one i, s, hs => repI_mono h raw i s hs
  | .cons i r, s, hs => by
    obtain ⟨s1, s2, e, h1, h2⟩ := hs
    exact ⟨s1, s2, e, repI_mono h raw i s1 h1, repA_mono h raw r s2 h2⟩

theorem repI_mono {G G' : List Str} (h : G <+: G') (raw : Bool) : ∀ (i : Item) (s : Str), RepI G raw i s → RepI G' raw i s
  | .nil, s, hs => hs
  | .chr c r, s, hs => by
    obtain ⟨s', e, hc, h1⟩ := hs
    exact ⟨s', e, hc, repI_mono h raw r s' h1⟩
  | .grp a r, s, hs => by
    obtain ⟨s', body, h1, h2⟩ := hs
    refine ⟨s', body, repI_mono h raw r s' h1, ?_⟩
    rcases h2 with ⟨hr, e, h2⟩ | ⟨n, hn, e, h2⟩
    · exact Or.inl ⟨hr, e, repA_mono h true a body h2⟩
    · exact Or.inr ⟨n, prefix_getElem? h hn, e, repA_mono h false a body h2⟩
end

theorem digits_chars {s : Str} (h : Digits s) : ∀ c ∈ s, c ∉ ['{', '}', ',', '<', '\n', '>'] := by
  intro c hc
  obtain ⟨d, hd, rfl⟩ := h c hc
  have : ∀ d, d < 10 → digitChar d ∉ ['{', '}', ',', '<', '\n', '>'] := by decide
  exact this d hd

mutual
/-- Without brackets to be replaced, there are no braces. -/
theorem repA_false {G : List Str} : ∀ (a : Alts) (s : Str), RepA G false a s → '{' ∉ s ∧ '}' ∉ s ∧ '\n' ∉ s
  | .one i, s, hs => repI_false i s hs |>.imp id fun h => ⟨h.1, h.2.1⟩
  | .cons i r, s, hs => by
    obtain ⟨s1, s2, rfl, h1, h2⟩ := hs
    have a1 := repI_false i s1 h1
    have a2 := repA_false r s2 h2
    simp only [List.mem_append, List.mem_cons, not_or]
    exact ⟨⟨a1.1, by decide, a2.1⟩, ⟨a1.2.1, by decide, a2.2.1⟩, a1.2.2.1, by decide, a2.2.2⟩

/-- Without brackets to be replaced, there are no braces and no commas. -/
theorem repI_false {G : List Str} : ∀ (i : Item) (s : Str), RepI G false i s → '{' ∉ s ∧ '}' ∉ s ∧ '\n' ∉ s ∧ ',' ∉ s
  | .nil, s, hs => by
    have : s = [] := hs
    simp [this]
  | .chr c r, s, hs => by
    obtain ⟨s', rfl, hc, h1⟩ := hs
    have a1 := repI_false r s' h1
    simp only [List.mem_cons, List.not_mem_nil, or_false, not_or] at hc ⊢
    exact ⟨⟨Ne.symm hc.1, a1.1⟩, ⟨Ne.symm hc.2.1, a1.2.1⟩, ⟨Ne.symm hc.2.2.2.2, a1.2.2.1⟩, Ne.symm hc.2.2.1, a1.2.2.2⟩
  | .grp a r, s, hs => by
    obtain ⟨s', body, h1, h2⟩ := hs
    have a1 := repI_false r s' h1
    rcases h2 with ⟨hr, -, -⟩ | ⟨n, -, rfl, -⟩
    · exact absurd hr (by decide)
    · have hd := digits_chars (showNat_digits n)
      simp only [List.mem_cons, List.mem_append, not_or]
      refine ⟨⟨by decide, fun h => hd _ h (by simp), by decide, a1.1⟩, ⟨by decide, fun h => hd _ h (by simp), by decide, a1.2.1⟩,
        ⟨by decide, fun h => hd _ h (by simp), by decide, a1.2.2.1⟩, by decide, fun h => hd _ h (by simp), by decide, a1.2.2.2⟩
end

mutual
/-- Without opening braces, there are no brackets left to be replaced. -/
theorem repA_done {G : List Str} : ∀ (a : Alts) (s : Str), RepA G true a s → '{' ∉ s → RepA G false a s
  | .one i, s, hs, hn => repI_done i s hs hn
  | .cons i r, s, hs, hn => by
    obtain ⟨s1, s2, rfl, h1, h2⟩ := hs
    simp only [List.mem_append, List.mem_cons, not_or] at hn
    exact ⟨s1, s2, rfl, repI_done i s1 h1 hn.1, repA_done r s2 h2 hn.2.2⟩

/-- Without opening braces, there are no brackets left to be replaced. -/
theorem repI_done {G : List Str} : ∀ (i : Item) (s : Str), RepI G true i s → '{' ∉ s → RepI G false i s
  | .nil, s, hs, _ => hs
  | .chr c r, s, hs, hn => by
    obtain ⟨s', rfl, hc, h1⟩ := hs
    exact ⟨s', rfl, hc, repI_done r s' h1 fun h => hn (by simp [h])⟩
  | .grp a r, s, hs, hn => by
    obtain ⟨s', body, h1, h2⟩ := hs
    rcases h2 with ⟨-, rfl, -⟩ | ⟨n, hG, rfl, h2⟩
    · exact absurd hn (by simp)
    · exact ⟨s', body, repI_done r s' h1 fun h => hn (by simp [h]), Or.inr ⟨n, hG, rfl, h2⟩⟩
end

theorem dropWhile_pass (s : Str) (h : ∀ c ∈ s, noBrace c = true) (t : Str) :
    (s ++ t).dropWhile noBrace = t.dropWhile noBrace ∧ (s ++ t).takeWhile noBrace = s ++ t.takeWhile noBrace := by
  induction s with
  | nil => simp
  | cons c s ih =>
    have := ih fun c hc => h c (by simp [hc])
    simp [h c (by simp), this]

mutual
/-- The first brace of an expression is an opening one. -/
theorem repA_first {G : List Str} : ∀ (a : Alts) (s : Str), RepA G true a s → '{' ∈ s → ∀ t, ∃ u,
    (s ++ t).dropWhile noBrace = '{' :: u
  | .one i, s, hs, hn, t => repI_first i s hs hn t
  | .cons i r, s, hs, hn, t => by
    obtain ⟨s1, s2, rfl, h1, h2⟩ := hs
    rw [List.append_assoc]
    by_cases h : '{' ∈ s1
    · exact repI_first i s1 h1 h _
    · have h' := repI_false i s1 (repI_done i s1 h1 h)
      have hn2 : '{' ∈ s2 := by
        simp only [List.mem_append, List.mem_cons] at hn
        rcases hn with hn | hn | hn
        · exact absurd hn h
        · exact absurd hn (by decide)
        · exact hn
      rw [(dropWhile_pass s1 (fun c hc => by
        unfold noBrace
        simp only [Bool.and_eq_true, bne_iff_ne, ne_eq]
        exact ⟨fun e => h (e ▸ hc), fun e => h'.2.1 (e ▸ hc)⟩) _).1, List.cons_append,
        List.dropWhile_cons_of_pos (by decide)]
      exact repA_first r s2 h2 hn2 t

/-- The first brace of an expression is an opening one. -/
theorem repI_first {G : List Str} : ∀ (i : Item) (s : Str), RepI G true i s → '{' ∈ s → ∀ t, ∃ u,
    (s ++ t).dropWhile noBrace = '{' :: u
  | .nil, s, hs, hn, _ => by
    have : s = [] := hs
    simp [this] at hn
  | .chr c r, s, hs, hn, t => by
    obtain ⟨s', rfl, hc, h1⟩ := hs
    simp only [List.mem_cons, List.not_mem_nil, or_false, not_or] at hc
    rw [List.cons_append, List.dropWhile_cons_of_pos (by simp [noBrace, hc.1, hc.2.1])]
    refine repI_first r s' h1 ?_ t
    rcases List.mem_cons.1 hn with h | h
    · exact absurd h.symm hc.1
    · exact h
  | .grp a r, s, hs, hn, t => by
    obtain ⟨s', body, h1, h2⟩ := hs
    rcases h2 with ⟨-, rfl, -⟩ | ⟨n, hG, rfl, h2⟩
    · exact ⟨_, rfl⟩
    · have hd := digits_chars (showNat_digits n)
      rw [List.cons_append, List.dropWhile_cons_of_pos (by decide), List.append_assoc,
        (dropWhile_pass _ (fun c hc => by
          have := hd c hc
          simp only [List.mem_cons, List.not_mem_nil, or_false, not_or] at this
          simp [noBrace, this.1, this.2.1]) _).1, List.cons_append, List.dropWhile_cons_of_pos (by decide)]
      refine repI_first r s' h1 ?_ t
      simp only [List.mem_cons, List.mem_append] at hn
      rcases hn with h | h | h | h
      · exact absurd h (by decide)
      · exact absurd (by simp) (hd _ h)
      · exact absurd h (by decide)
      · exact h
end

/-! ### Packing -/

theorem pass_cons (G : List Str) (c : Char) (r : Str) (h : c ≠ '{') : pass G (c :: r) = (c :: (pass G r).1, (pass G r).2) := by
  rw [pass, if_neg h]

theorem pass_nil (G : List Str) : pass G [] = ([], G) := by
  rw [pass]

theorem pass_open (G : List Str) (r u : Str) (h : r.dropWhile noBrace = '{' :: u) :
    pass G ('{' :: r) = ('{' :: (pass G r).1, (pass G r).2) := by
  rw [pass, if_pos rfl]
  split
  · rename_i h'
    rw [h] at h'
    exact absurd (List.cons.inj h').1 (by decide)
  · rfl

theorem pass_close (G : List Str) (r u : Str) (h : r.dropWhile noBrace = '}' :: u) :
    pass G ('{' :: r) = ('<' :: (showNat G.length ++ '>' :: (pass (G ++ [r.takeWhile noBrace]) u).1),
      (pass (G ++ [r.takeWhile noBrace]) u).2) := by
  rw [pass, if_pos rfl]
  split
  · rename_i rest h'
    rw [h] at h'
    rw [(List.cons.inj h').2]
  · rename_i hn
    exact absurd h (hn u)

theorem pass_plain (G : List Str) (s : Str) (h : '{' ∉ s) (t : Str) :
    pass G (s ++ t) = (s ++ (pass G t).1, (pass G t).2) := by
  induction s with
  | nil => simp
  | cons c s ih =>
    rw [List.cons_append, pass_cons G c _ fun e => h (by simp [e]), ih fun e => h (by simp [e])]
    rfl

mutual
/-- One pass over an expression: it still represents the same list; if there are any brackets, some are replaced. -/
theorem repA_pass : ∀ (a : Alts) (G : List Str) (s : Str), RepA G true a s → ∀ t, ∃ s' G', G <+: G' ∧
    pass G (s ++ t) = (s' ++ (pass G' t).1, (pass G' t).2) ∧ RepA G' true a s' ∧ ('{' ∈ s → G.length < G'.length)
  | .one i, G, s, hs, t => repI_pass i G s hs t
  | .cons i r, G, s, hs, t => by
    obtain ⟨s1, s2, rfl, h1, h2⟩ := hs
    obtain ⟨s1', G1, hG1, e1, r1, l1⟩ := repI_pass i G s1 h1 (',' :: (s2 ++ t))
    obtain ⟨s2', G2, hG2, e2, r2, l2⟩ := repA_pass r G1 s2 (repA_mono hG1 true r s2 h2) t
    refine ⟨s1' ++ ',' :: s2', G2, hG1.trans hG2, ?_, ⟨s1', s2', rfl, repI_mono hG2 true i s1' r1, r2⟩, ?_⟩
    · rw [List.append_assoc, List.cons_append, e1, pass_cons _ _ _ (by decide), e2]
      simp
    · intro h
      have := hG1.length_le
      have := hG2.length_le
      simp only [List.mem_append, List.mem_cons] at h
      rcases h with h | h | h
      · have := l1 h
        omega
      · exact absurd h (by decide)
      · have := l2 h
        omega

/-- One pass over an expression: it still represents the same product; if there are any brackets, some are replaced. -/
theorem repI_pass : ∀ (i : Item) (G : List Str) (s : Str), RepI G true i s → ∀ t, ∃ s' G', G <+: G' ∧
    pass G (s ++ t) = (s' ++ (pass G' t).1, (pass G' t).2) ∧ RepI G' true i s' ∧ ('{' ∈ s → G.length < G'.length)
  | .nil, G, s, hs, t => by
    have : s = [] := hs
    subst this
    exact ⟨[], G, List.prefix_rfl, rfl, rfl, fun h => absurd h (by simp)⟩
  | .chr c r, G, s, hs, t => by
    obtain ⟨s', rfl, hc, h1⟩ := hs
    obtain ⟨s1, G1, hG1, e1, r1, l1⟩ := repI_pass r G s' h1 t
    have hc' := hc
    simp only [List.mem_cons, List.not_mem_nil, or_false, not_or] at hc'
    refine ⟨c :: s1, G1, hG1, ?_, ⟨s1, rfl, hc, r1⟩, fun h => ?_⟩
    · rw [List.cons_append, pass_cons _ _ _ hc'.1, e1]
      rfl
    · rcases List.mem_cons.1 h with h | h
      · exact absurd h.symm hc'.1
      · exact l1 h
  | .grp a r, G, s, hs, t => by
    obtain ⟨s', body, h1, h2⟩ := hs
    rcases h2 with ⟨-, rfl, h2⟩ | ⟨n, hG, rfl, h2⟩
    · by_cases hb : '{' ∈ body
      · obtain ⟨u, hu⟩ := repA_first a body h2 hb ('}' :: (s' ++ t))
        obtain ⟨b', G1, hG1, e1, r1, l1⟩ := repA_pass a G body h2 ('}' :: (s' ++ t))
        obtain ⟨s1, G2, hG2, e2, r2, -⟩ := repI_pass r G1 s' (repI_mono hG1 true r s' h1) t
        refine ⟨'{' :: (b' ++ '}' :: s1), G2, hG1.trans hG2, ?_, ⟨s1, b', r2, Or.inl ⟨rfl, rfl, repA_mono hG2 true a b' r1⟩⟩,
          fun _ => (l1 hb).trans_le hG2.length_le⟩
        rw [List.cons_append, List.append_assoc, List.cons_append, pass_open _ _ _ hu, e1, pass_cons _ _ _ (by decide), e2]
        simp
      · have h3 := repA_done a body h2 hb
        have h4 := repA_false a body h3
        have hdw := dropWhile_pass body (fun c hc => by
          unfold noBrace
          simp only [Bool.and_eq_true, bne_iff_ne, ne_eq]
          exact ⟨fun e => hb (e ▸ hc), fun e => h4.2.1 (e ▸ hc)⟩) ('}' :: (s' ++ t))
        have hd : (body ++ '}' :: (s' ++ t)).dropWhile noBrace = '}' :: (s' ++ t) := by
          rw [hdw.1, List.dropWhile_cons_of_neg (by decide)]
        have ht : (body ++ '}' :: (s' ++ t)).takeWhile noBrace = body := by
          rw [hdw.2, List.takeWhile_cons_of_neg (by decide), List.append_nil]
        have hG0 : G <+: G ++ [body] := List.prefix_append _ _
        obtain ⟨s1, G1, hG1, e1, r1, -⟩ := repI_pass r (G ++ [body]) s' (repI_mono hG0 true r s' h1) t
        refine ⟨'<' :: (showNat G.length ++ '>' :: s1), G1, hG0.trans hG1, ?_, ⟨s1, body, r1, Or.inr ⟨G.length, ?_, rfl, ?_⟩⟩,
          fun _ => ?_⟩
        · rw [List.cons_append, List.append_assoc, List.cons_append, pass_close _ _ _ hd, ht, e1]
          simp
        · exact prefix_getElem? hG1 (by simp)
        · exact repA_mono (hG0.trans hG1) false a body h3
        · have := hG1.length_le
          simp only [List.length_append, List.length_singleton] at this
          omega
    · obtain ⟨s1, G1, hG1, e1, r1, l1⟩ := repI_pass r G s' h1 t
      have hd := digits_chars (showNat_digits n)
      have hno : '{' ∉ '<' :: (showNat n ++ ['>']) := by
        simp only [List.mem_cons, List.mem_append, List.not_mem_nil, or_false, not_or]
        exact ⟨by decide, fun h => hd _ h (by simp), by decide⟩
      refine ⟨'<' :: (showNat n ++ '>' :: s1), G1, hG1, ?_, ⟨s1, body, r1, Or.inr ⟨n, prefix_getElem? hG1 hG, rfl,
        repA_mono hG1 false a body h2⟩⟩, fun h => ?_⟩
      · have := pass_plain G _ hno (s' ++ t)
        simp only [List.cons_append, List.append_assoc, List.nil_append] at this ⊢
        rw [this, e1]
      · refine l1 ?_
        simp only [List.mem_cons, List.mem_append] at h
        rcases h with h | h | h | h
        · exact absurd h (by decide)
        · exact absurd (by simp) (hd _ h)
        · exact absurd h (by decide)
        · exact h
end

theorem dropWhile_head {p : Char → Bool} {l u : Str} {d : Char} (h : l.dropWhile p = d :: u) : p d = false := by
  induction l with
  | nil => simp at h
  | cons c l ih =>
    by_cases hc : p c = true
    · rw [List.dropWhile_cons_of_pos hc] at h
      exact ih h
    · rw [List.dropWhile_cons_of_neg hc] at h
      rw [← (List.cons.inj h).1]
      simpa using hc

/-- Every replacement removes an opening brace. -/
theorem pass_count (s : Str) : ∀ G, (pass G s).1.count '{' + (pass G s).2.length = s.count '{' + G.length := by
  induction hn : s.length using Nat.strong_induction_on generalizing s with
  | _ n ih =>
    subst hn
    intro G
    cases s with
    | nil => simp [pass_nil]
    | cons c r =>
      by_cases hc : c = '{'
      · subst hc
        have hsuf := List.takeWhile_append_dropWhile (p := noBrace) (l := r)
        have htake : (r.takeWhile noBrace).count '{' = 0 := by
          rw [List.count_eq_zero]
          intro h
          exact absurd (List.mem_takeWhile_imp h) (by decide)
        cases hd : r.dropWhile noBrace with
        | nil =>
          have : pass G ('{' :: r) = ('{' :: (pass G r).1, (pass G r).2) := by
            rw [pass, if_pos rfl]
            split
            · rename_i h'
              rw [hd] at h'
              exact absurd h' (by simp)
            · rfl
          rw [this]
          have := ih r.length (by simp) r rfl G
          simp only [List.count_cons_self]
          omega
        | cons d u =>
          have hd' : d = '{' ∨ d = '}' := by
            have := dropWhile_head hd
            simp only [noBrace, Bool.and_eq_false_iff, bne_eq_false_iff_eq] at this
            exact this
          rcases hd' with rfl | rfl
          · rw [pass_open G r u hd]
            have := ih r.length (by simp) r rfl G
            simp only [List.count_cons_self]
            omega
          · rw [pass_close G r u hd]
            have hlen : u.length < ('{' :: r).length := by
              have := congrArg List.length hsuf
              rw [hd] at this
              simp only [List.length_append, List.length_cons] at this ⊢
              omega
            have := ih u.length hlen u rfl (G ++ [r.takeWhile noBrace])
            have hcr : r.count '{' = u.count '{' := by
              conv_lhs => rw [← hsuf, hd]
              rw [List.count_append, htake, List.count_cons_of_ne (by decide)]
              simp
            have hdig : (showNat G.length).count '{' = 0 := by
              rw [List.count_eq_zero]
              exact fun h => digits_chars (showNat_digits _) _ h (by simp)
            rw [List.count_cons_of_ne (by decide), List.count_append, hdig, List.count_cons_of_ne (by decide),
              List.count_cons_self, hcr]
            simp only [List.length_append, List.length_singleton] at this ⊢
            omega
      · rw [pass_cons G c r hc]
        have := ih r.length (by simp) r rfl G
        rw [List.count_cons_of_ne hc, List.count_cons_of_ne hc]
        exact this

/-- All brackets are replaced. -/
theorem packLoop_spec (i : Item) : ∀ (f : Nat) (G : List Str) (s : Str), RepI G true i s → s.count '{' < f →
    ∃ x G', packLoop f G s = some (x, G') ∧ RepI G' false i x := by
  intro f
  induction f with
  | zero => intro G s _ h; omega
  | succ f ih =>
    intro G s hs hf
    obtain ⟨s', G', hG', e, hr, hl⟩ := repI_pass i G s hs []
    rw [List.append_nil, pass_nil, List.append_nil] at e
    unfold packLoop
    rw [e]
    by_cases hb : '{' ∈ s
    · have hlt := hl hb
      have hc := pass_count s G
      rw [e] at hc
      simp only at hc ⊢
      rw [if_neg (by omega)]
      exact ih G' s' hr (by omega)
    · have hp := pass_plain G s hb []
      rw [List.append_nil, pass_nil, List.append_nil, e] at hp
      obtain ⟨rfl, rfl⟩ := Prod.mk.inj hp
      simp only [if_true]
      exact ⟨s', G', rfl, repI_done i s' hr hb⟩

/-! ### Expansion -/

theorem append_nil' : ∀ i : Item, i.append .nil = i
  | .nil => rfl
  | .chr c r => by rw [Item.append, append_nil' r]
  | .grp a r => by rw [Item.append, append_nil' r]

theorem append_assoc' : ∀ i j k : Item, (i.append j).append k = i.append (j.append k)
  | .nil, _, _ => rfl
  | .chr c r, j, k => by simp only [Item.append, append_assoc' r]
  | .grp a r, j, k => by simp only [Item.append, append_assoc' r]

theorem repI_append {G : List Str} {raw : Bool} : ∀ (i j : Item) (s t : Str), RepI G raw i s → RepI G raw j t →
    RepI G raw (i.append j) (s ++ t)
  | .nil, j, s, t, hs, ht => by
    have : s = [] := hs
    subst this
    exact ht
  | .chr c r, j, s, t, hs, ht => by
    obtain ⟨s', rfl, hc, h1⟩ := hs
    exact ⟨s' ++ t, rfl, hc, repI_append r j s' t h1 ht⟩
  | .grp a r, j, s, t, hs, ht => by
    obtain ⟨s', body, h1, h2⟩ := hs
    refine ⟨s' ++ t, body, repI_append r j s' t h1 ht, ?_⟩
    rcases h2 with ⟨hr, rfl, h2⟩ | ⟨n, hG, rfl, h2⟩
    · exact Or.inl ⟨hr, by simp, h2⟩
    · exact Or.inr ⟨n, hG, by simp, h2⟩

theorem expand_append : ∀ i j : Item, (i.append j).expand = j.expand.flatMap fun t => i.expand.map (· ++ t)
  | .nil, j => by
    simp only [Item.append, Item.expand, List.map_cons, List.map_nil, List.nil_append]
    induction j.expand with
    | nil => rfl
    | cons a l ih => rw [List.flatMap_cons, ← ih]; rfl
  | .chr c r, j => by
    rw [Item.append, Item.expand, expand_append r j, List.map_flatMap]
    refine List.flatMap_congr fun t _ => ?_
    rw [Item.expand]
    simp
  | .grp a r, j => by
    rw [Item.append, Item.expand, expand_append r j, List.flatMap_assoc]
    refine List.flatMap_congr fun t _ => ?_
    rw [Item.expand, List.flatMap_map, List.map_flatMap]
    refine List.flatMap_congr fun u _ => ?_
    simp

theorem size_append : ∀ i j : Item, (i.append j).size = i.size + j.size
  | .nil, j => by simp [Item.append, Item.size]
  | .chr c r, j => by simp only [Item.append, Item.size, size_append r]
  | .grp a r, j => by
    simp only [Item.append, Item.size, size_append r]
    omega

theorem trimLeft_size : ∀ i : Item, i.trimLeft.size = i.size
  | .nil => rfl
  | .chr c r => by
    unfold Item.trimLeft
    split
    · rw [trimLeft_size r]
      rfl
    · rfl
  | .grp a r => rfl

theorem trimRight_size : ∀ i : Item, i.trimRight.size = i.size
  | .nil => rfl
  | .chr c r => by
    have h := trimRight_size r
    unfold Item.trimRight
    split
    · rename_i hr
      rw [hr] at h
      split <;> simpa [Item.size] using h
    · rename_i d r' hr
      rw [hr] at h
      simpa [Item.size] using h
    · rename_i d r' hr
      rw [hr] at h
      simpa [Item.size] using h
  | .grp a r => by simp only [Item.trimRight, Item.size, trimRight_size r]

theorem trim_size (i : Item) : i.trim.size = i.size := (trimRight_size _).trans (trimLeft_size i)

theorem expand_items : ∀ a : Alts, a.expand = a.items.flatMap fun i => i.trim.expand
  | .one i => by
    rw [Alts.expand]
    simp [Alts.items]
  | .cons i r => by
    rw [Alts.expand, expand_items r]
    simp [Alts.items]

theorem items_size : ∀ a : Alts, ∀ i ∈ a.items, i.size ≤ a.size
  | .one i, j, hj => by
    simp only [Alts.items, List.mem_singleton] at hj
    rw [hj]
    exact le_rfl
  | .cons i r, j, hj => by
    simp only [Alts.items, List.mem_cons] at hj
    rcases hj with rfl | hj
    · simp [Alts.size]
    · have := items_size r j hj
      simp only [Alts.size]
      omega

theorem splitOn_solid (s : Str) (h : ',' ∉ s) (t : Str) :
    splitOn (s ++ ',' :: t) = s :: splitOn t ∧ splitOn s = [s] := by
  induction s with
  | nil => simp [splitOn]
  | cons c s ih =>
    have hc : c ≠ ',' := fun e => h (by simp [e])
    obtain ⟨h1, h2⟩ := ih fun e => h (by simp [e])
    rw [List.cons_append, splitOn, splitOn, if_neg hc, if_neg hc, h1, h2]
    exact ⟨rfl, rfl⟩

theorem splitOn_rep {G : List Str} : ∀ (a : Alts) (s : Str), RepA G false a s →
    List.Forall₂ (RepI G false) a.items (splitOn s)
  | .one i, s, hs => by
    rw [(splitOn_solid s (repI_false i s hs).2.2.2 []).2]
    exact List.Forall₂.cons hs List.Forall₂.nil
  | .cons i r, s, hs => by
    obtain ⟨s1, s2, rfl, h1, h2⟩ := hs
    rw [(splitOn_solid s1 (repI_false i s1 h1).2.2.2 s2).1]
    exact List.Forall₂.cons h1 (splitOn_rep r s2 h2)

theorem lstrip_rep {G : List Str} : ∀ (i : Item) (s : Str), RepI G false i s → RepI G false i.trimLeft (s.dropWhile isSpace)
  | .nil, s, hs => by
    have : s = [] := hs
    subst this
    rfl
  | .chr c r, s, hs => by
    obtain ⟨s', rfl, hc, h1⟩ := hs
    unfold Item.trimLeft
    by_cases h : isSpace c = true
    · rw [if_pos h, List.dropWhile_cons_of_pos h]
      exact lstrip_rep r s' h1
    · rw [if_neg h, List.dropWhile_cons_of_neg h]
      exact ⟨s', rfl, hc, h1⟩
  | .grp a r, s, hs => by
    obtain ⟨s', body, h1, h2⟩ := hs
    rcases h2 with ⟨hr, -, -⟩ | ⟨n, hG, rfl, h2⟩
    · exact absurd hr (by decide)
    · rw [List.dropWhile_cons_of_neg (by decide)]
      exact ⟨s', body, h1, Or.inr ⟨n, hG, rfl, h2⟩⟩

theorem rstrip_cons (c : Char) (r d : Str) (e : Char) (h : rstrip r = e :: d) : rstrip (c :: r) = c :: e :: d := by
  rw [rstrip, h]

/-- Text that ends with a solid character is not changed. -/
theorem rstrip_solid (s : Str) (c : Char) (hc : isSpace c = false) (t : Str) :
    rstrip (s ++ c :: t) = s ++ c :: rstrip t := by
  induction s with
  | nil =>
    rw [List.nil_append, List.nil_append, rstrip]
    cases h : rstrip t with
    | nil => simp [hc]
    | cons d u => rfl
  | cons d s ih =>
    rw [List.cons_append, List.cons_append]
    cases h : s ++ c :: rstrip t with
    | nil => simp at h
    | cons e u =>
      rw [h] at ih
      rw [rstrip_cons d _ u e ih]

theorem rstrip_rep {G : List Str} : ∀ (i : Item) (s : Str), RepI G false i s → RepI G false i.trimRight (rstrip s)
  | .nil, s, hs => by
    have : s = [] := hs
    subst this
    rfl
  | .chr c r, s, hs => by
    obtain ⟨s', rfl, hc, h1⟩ := hs
    have h2 := rstrip_rep r s' h1
    unfold Item.trimRight
    split
    · rename_i hr
      rw [hr] at h2
      have h2 : rstrip s' = [] := h2
      rw [rstrip, h2]
      simp only
      by_cases h : isSpace c = true
      · rw [if_pos h, if_pos h]
        rfl
      · rw [if_neg h, if_neg h]
        exact ⟨[], rfl, hc, rfl⟩
    · rename_i d r' hr
      rw [hr] at h2
      obtain ⟨u, e, hd, h3⟩ := h2
      rw [rstrip_cons c s' u d e]
      exact ⟨d :: u, rfl, hc, u, rfl, hd, h3⟩
    · rename_i a r' hr
      rw [hr] at h2
      have h2' := h2
      obtain ⟨u, body, h3, h4⟩ := h2
      rcases h4 with ⟨hr', -, -⟩ | ⟨n, hG, e, h4⟩
      · exact absurd hr' (by decide)
      · rw [rstrip_cons c s' _ _ e, ← e]
        exact ⟨rstrip s', rfl, hc, h2'⟩
  | .grp a r, s, hs => by
    obtain ⟨s', body, h1, h2⟩ := hs
    rcases h2 with ⟨hr, -, -⟩ | ⟨n, hG, rfl, h2⟩
    · exact absurd hr (by decide)
    · have := rstrip_solid ('<' :: showNat n) '>' (by decide) s'
      rw [List.cons_append, List.cons_append] at this
      rw [this]
      exact ⟨rstrip s', body, rstrip_rep r s' h1, Or.inr ⟨n, hG, rfl, h2⟩⟩

theorem strip_rep {G : List Str} (i : Item) (s : Str) (h : RepI G false i s) : RepI G false i.trim (strip s) :=
  rstrip_rep _ _ (lstrip_rep i s h)

/-- Products without brackets. -/
theorem rep_plain {G : List Str} : ∀ (i : Item) (s : Str), RepI G false i s → i.size = 0 → i.expand = [s] ∧ '<' ∉ s
  | .nil, s, hs, _ => by
    have : s = [] := hs
    subst this
    rw [Item.expand]
    simp
  | .chr c r, s, hs, h0 => by
    obtain ⟨s', rfl, hc, h1⟩ := hs
    obtain ⟨h2, h3⟩ := rep_plain r s' h1 h0
    rw [Item.expand, h2]
    simp only [List.mem_cons, List.not_mem_nil, or_false, not_or] at hc
    simp only [List.map_cons, List.map_nil, true_and, List.mem_cons, not_or]
    exact ⟨Ne.symm hc.2.2.2.1, h3⟩
  | .grp a r, s, _, h0 => by
    simp only [Item.size] at h0
    omega

theorem lastGroup_none (s : Str) (h : '<' ∉ s) : lastGroup s = none := by
  induction s with
  | nil => rfl
  | cons c s ih =>
    rw [lastGroup, ih fun e => h (by simp [e])]
    simp only
    rw [if_neg fun e => h (by simp [e])]

theorem lastGroup_cons (c : Char) (s p : Str) (n : Nat) (t : Str) (h : lastGroup s = some (p, n, t)) :
    lastGroup (c :: s) = some (c :: p, n, t) := by
  rw [lastGroup, h]

theorem lastGroup_prefix (u s p : Str) (n : Nat) (t : Str) (h : lastGroup s = some (p, n, t)) :
    lastGroup (u ++ s) = some (u ++ p, n, t) := by
  induction u with
  | nil => exact h
  | cons c u ih => exact lastGroup_cons c _ _ _ _ ih

theorem isDigit_digits {s : Str} (h : Digits s) : ∀ c ∈ s, isDigit c = true := by
  intro c hc
  obtain ⟨d, hd, rfl⟩ := h c hc
  simp [isDigit, digitVal_digitChar d hd]

theorem lastGroup_group (n : Nat) (t : Str) (h : '<' ∉ t) : lastGroup ('<' :: (showNat n ++ '>' :: t)) = some ([], n, t) := by
  have hd := digits_chars (showNat_digits n)
  have h0 : lastGroup (showNat n ++ '>' :: t) = none := by
    refine lastGroup_none _ ?_
    simp only [List.mem_append, List.mem_cons, not_or]
    exact ⟨fun h => hd _ h (by simp), by decide, h⟩
  obtain ⟨h1, h2⟩ := takeWhile_append (p := isDigit) (showNat n) '>' t (isDigit_digits (showNat_digits n)) (by decide)
  rw [lastGroup, h0]
  simp only [if_true, h1, h2, readDigits_showNat]
  rw [if_neg (showNat_ne n)]

/-- The last bracket of a product. -/
theorem rep_last {G : List Str} : ∀ (i : Item) (s : Str), RepI G false i s → 0 < i.size → ∃ i1 a i2 s1 n body s2,
    i = i1.append (.grp a i2) ∧ i2.size = 0 ∧ lastGroup s = some (s1, n, s2) ∧ G[n]? = some body ∧ RepI G false i1 s1 ∧
      RepA G false a body ∧ RepI G false i2 s2
  | .nil, s, _, h0 => by simp [Item.size] at h0
  | .chr c r, s, hs, h0 => by
    obtain ⟨s', rfl, hc, h1⟩ := hs
    obtain ⟨i1, a, i2, s1, n, body, s2, e, h2, h3, h4, h5, h6, h7⟩ := rep_last r s' h1 h0
    exact ⟨.chr c i1, a, i2, c :: s1, n, body, s2, by rw [e]; rfl, h2, lastGroup_cons c _ _ _ _ h3, h4, ⟨s1, rfl, hc, h5⟩, h6, h7⟩
  | .grp a r, s, hs, h0 => by
    obtain ⟨s', body, h1, h2⟩ := hs
    rcases h2 with ⟨hr, -, -⟩ | ⟨n, hG, rfl, h2⟩
    · exact absurd hr (by decide)
    · by_cases hr : 0 < r.size
      · obtain ⟨i1, a', i2, s1, n', body', s2, e, h3, h4, h5, h6, h7, h8⟩ := rep_last r s' h1 hr
        refine ⟨.grp a i1, a', i2, '<' :: (showNat n ++ '>' :: s1), n', body', s2, by rw [e]; rfl, h3, ?_, h5,
          ⟨s1, body, h6, Or.inr ⟨n, hG, rfl, h2⟩⟩, h7, h8⟩
        have := lastGroup_prefix ('<' :: (showNat n ++ ['>'])) _ _ _ _ h4
        simpa using this
      · have hr0 : r.size = 0 := by omega
        exact ⟨.nil, a, r, [], n, body, s', rfl, hr0, lastGroup_group n s' (rep_plain r s' h1 hr0).2, hG, rfl, h2, h1⟩

theorem mapM_forall₂ {α β γ : Type} (R : α → β → Prop) (f : β → Option γ) (g : α → γ) (h : ∀ a b, R a b → f b = some (g a)) :
    ∀ (l : List α) (m : List β), List.Forall₂ R l m → m.mapM f = some (l.map g)
  | [], [], _ => rfl
  | a :: l, b :: m, hlm => by
    cases hlm with
    | cons hab hrest =>
      rw [List.mapM_cons, h a b hab, mapM_forall₂ R f g h l m hrest]
      rfl

theorem factorize_spec {G : List Str} : ∀ (N : Nat) (i : Item) (x : Str), i.size ≤ N → RepI G false i x → ∀ f, N < f →
    factorize G f x = some i.expand := by
  intro N
  induction N with
  | zero =>
    intro i x hN hx f hf
    obtain ⟨h1, h2⟩ := rep_plain i x hx (by omega)
    obtain ⟨f, rfl⟩ := Nat.exists_eq_succ_of_ne_zero (by omega : f ≠ 0)
    unfold factorize
    rw [lastGroup_none _ fun h => h2 ((List.takeWhile_prefix _).subset h), h1]
  | succ N ih =>
    intro i x hN hx f hf
    by_cases h0 : 0 < i.size
    · obtain ⟨i1, a, i2, s1, n, body, s2, rfl, h2, h3, h4, h5, h6, h7⟩ := rep_last i x hx h0
      obtain ⟨f, rfl⟩ := Nat.exists_eq_succ_of_ne_zero (by omega : f ≠ 0)
      have hline : x.takeWhile (· ≠ '\n') = x := by
        refine (Verif.Text.takeWhile_all x fun c hc => ?_).1
        simp only [ne_eq, decide_not, Bool.not_eq_true', decide_eq_false_iff_not]
        intro e
        exact (repI_false _ x hx).2.2.1 (e ▸ hc)
      unfold factorize
      rw [hline, h3]
      simp only [h4]
      have hitems := splitOn_rep a body h6
      have hmem : List.Forall₂ (fun j y => j ∈ a.items ∧ RepI G false j y) a.items (splitOn body) := by
        rw [List.forall₂_and_left]
        exact ⟨fun x hx => hx, hitems⟩
      rw [mapM_forall₂ (fun j y => j ∈ a.items ∧ RepI G false j y) _ (fun j => (i1.append (j.trim.append i2)).expand) ?_ _ _ hmem]
      · simp only [Option.map_some, Option.some.injEq]
        rw [expand_append, Item.expand, (rep_plain i2 s2 h7 h2).1]
        simp only [List.flatMap_singleton, List.flatMap_map]
        rw [expand_items, List.flatMap_assoc, List.flatten_eq_flatMap, List.flatMap_map]
        refine List.flatMap_congr fun j _ => ?_
        simp only [id]
        rw [expand_append, expand_append, (rep_plain i2 s2 h7 h2).1]
        simp only [List.flatMap_singleton, List.flatMap_map]
      · rintro j y ⟨hj, hy⟩
        refine ih _ _ ?_ (repI_append _ _ _ _ h5 (repI_append _ _ _ _ (strip_rep j y hy) h7)) f (by omega)
        have := items_size a j hj
        rw [size_append, size_append, trim_size]
        rw [size_append, Item.size] at hN
        omega
    · obtain ⟨h1, h2⟩ := rep_plain i x hx (by omega)
      obtain ⟨f, rfl⟩ := Nat.exists_eq_succ_of_ne_zero (by omega : f ≠ 0)
      unfold factorize
      rw [lastGroup_none _ fun h => h2 ((List.takeWhile_prefix _).subset h), h1]

/-! ### C11 -/

/-- C11 (missing: expressions containing the character `<`, which is used internally, and line breaks, see `C11_violated`):
`split` returns all alternatives of every expression of any depth and length, once enough iterations and nested calls are
allowed. -/
theorem C11_partial (a : Alts) (h : a.Plain) : ∃ f0, ∀ fuel, f0 ≤ fuel → split fuel a.text = some a.expand := by
  have hrep : RepI [] true (.grp a .nil) ('{' :: (a.text ++ ['}'])) := ⟨[], a.text, rfl, Or.inl ⟨rfl, rfl, repA_text [] a h⟩⟩
  refine ⟨max (('{' :: (a.text ++ ['}'])).count '{' + 1) ((Item.grp a .nil).size + 1), fun fuel hf => ?_⟩
  obtain ⟨x, G, e, hx⟩ := packLoop_spec (.grp a .nil) fuel [] _ hrep (by omega)
  unfold split
  rw [e]
  simp only
  rw [factorize_spec _ _ _ le_rfl hx fuel (by omega), Item.expand, Item.expand]
  simp

/-- `a{b,c}, d` -/
def sampleExpr : Alts := .cons (.chr 'a' (.grp (.cons (.chr 'b' .nil) (.one (.chr 'c' .nil))) .nil))
  (.one (.chr ' ' (.chr 'd' .nil)))

example : sampleExpr.Plain ∧ sampleExpr.text = "a{b,c}, d".toList ∧
    sampleExpr.expand = ["ab".toList, "ac".toList, "d".toList] := by
  refine ⟨?_, by decide, ?_⟩
  · simp [sampleExpr, Alts.Plain, Item.Plain]
  · simp [sampleExpr, Alts.expand, Item.expand, Item.trim, Item.trimLeft, Item.trimRight, isSpace]

/-- Texts denoted by a list or product, as a relation. -/
inductive Denotes : Alts ⊕ Item → Str → Prop
  | one {i s} : Denotes (.inr i.trim) s → Denotes (.inl (.one i)) s
  | head {i r s} : Denotes (.inr i.trim) s → Denotes (.inl (.cons i r)) s
  | tail {i r s} : Denotes (.inl r) s → Denotes (.inl (.cons i r)) s
  | nil : Denotes (.inr .nil) []
  | chr {c r s} : Denotes (.inr r) s → Denotes (.inr (.chr c r)) (c :: s)
  | grp {a r s t} : Denotes (.inl a) s → Denotes (.inr r) t → Denotes (.inr (.grp a r)) (s ++ t)

theorem denotes_expand (x : Alts ⊕ Item) (s : Str) (h : Denotes x s) : s ∈ x.elim Alts.expand Item.expand := by
  induction h with
  | one _ ih => simpa [Alts.expand] using ih
  | head _ ih =>
    simp only [Sum.elim_inl, Sum.elim_inr, Alts.expand, List.mem_append] at ih ⊢
    exact Or.inl ih
  | tail _ ih =>
    simp only [Sum.elim_inl, Alts.expand, List.mem_append] at ih ⊢
    exact Or.inr ih
  | nil => simp [Item.expand]
  | chr _ ih => simpa [Item.expand] using ih
  | grp _ _ ih1 ih2 =>
    simp only [Sum.elim_inl, Sum.elim_inr, Item.expand, List.mem_flatMap, List.mem_map] at ih1 ih2 ⊢
    exact ⟨_, ih2, _, ih1, rfl⟩

mutual
theorem expand_denotesA (a : Alts) (s : Str) (h : s ∈ a.expand) : Denotes (.inl a) s := by
  match a with
  | .one i =>
    rw [Alts.expand] at h
    exact .one (expand_denotesI i.trim s h)
  | .cons i r =>
    rw [Alts.expand, List.mem_append] at h
    rcases h with h | h
    · exact .head (expand_denotesI i.trim s h)
    · exact .tail (expand_denotesA r s h)
termination_by a.nodes
decreasing_by
  all_goals
    have := trim_nodes i
    simp only [Alts.nodes]
    omega

theorem expand_denotesI (i : Item) (s : Str) (h : s ∈ i.expand) : Denotes (.inr i) s := by
  match i with
  | .nil =>
    rw [Item.expand, List.mem_singleton] at h
    rw [h]
    exact .nil
  | .chr c r =>
    rw [Item.expand, List.mem_map] at h
    obtain ⟨t, ht, rfl⟩ := h
    exact .chr (expand_denotesI r t ht)
  | .grp a r =>
    rw [Item.expand, List.mem_flatMap] at h
    obtain ⟨t, ht, h⟩ := h
    rw [List.mem_map] at h
    obtain ⟨u, hu, rfl⟩ := h
    exact .grp (expand_denotesA a u hu) (expand_denotesI r t ht)
termination_by i.nodes
decreasing_by
  all_goals
    simp only [Item.nodes]
    omega
end

/-- C11 (missing: as in `C11_partial`): an alternative is returned if and only if it is denoted by the expression. -/
theorem C11_members_partial (a : Alts) (h : a.Plain) (s : Str) : ∃ f0, ∀ fuel, f0 ≤ fuel →
    ∃ l, split fuel a.text = some l ∧ (s ∈ l ↔ Denotes (.inl a) s) := by
  obtain ⟨f0, hf⟩ := C11_partial a h
  exact ⟨f0, fun fuel hfuel => ⟨_, hf fuel hfuel, expand_denotesA a s, denotes_expand (.inl a) s⟩⟩

example : Denotes (.inl sampleExpr) "ac".toList :=
  .head (.chr (.grp (s := ['c']) (t := []) (.tail (.one (.chr .nil))) .nil))

mutual
/-- Number of alternatives of a list: sum. -/
def Alts.number : Alts → Nat
  | .one i => i.number
  | .cons i r => i.number + r.number

/-- Number of alternatives of a product: product. -/
def Item.number : Item → Nat
  | .nil => 1
  | .chr _ r => r.number
  | .grp a r => a.number * r.number
end

theorem trimLeft_number : ∀ i : Item, i.trimLeft.number = i.number
  | .nil => rfl
  | .chr c r => by
    unfold Item.trimLeft
    split
    · rw [trimLeft_number r]
      rfl
    · rfl
  | .grp a r => rfl

theorem trimRight_number : ∀ i : Item, i.trimRight.number = i.number
  | .nil => rfl
  | .chr c r => by
    have h := trimRight_number r
    unfold Item.trimRight
    split
    · rename_i hr
      rw [hr] at h
      split <;> simpa [Item.number] using h
    · rename_i d r' hr
      rw [hr] at h
      simpa [Item.number] using h
    · rename_i d r' hr
      rw [hr] at h
      simpa [Item.number] using h
  | .grp a r => by simp only [Item.trimRight, Item.number, trimRight_number r]

mutual
theorem expand_lengthA (a : Alts) : a.expand.length = a.number := by
  match a with
  | .one i =>
    rw [Alts.expand, expand_lengthI i.trim, Alts.number, Item.trim, trimRight_number, trimLeft_number]
  | .cons i r =>
    rw [Alts.expand, List.length_append, expand_lengthI i.trim, expand_lengthA r, Alts.number, Item.trim, trimRight_number,
      trimLeft_number]
termination_by a.nodes
decreasing_by
  all_goals
    have := trim_nodes i
    simp only [Alts.nodes]
    omega

theorem expand_lengthI (i : Item) : i.expand.length = i.number := by
  match i with
  | .nil => rw [Item.expand]; rfl
  | .chr c r => rw [Item.expand, List.length_map, expand_lengthI r, Item.number]
  | .grp a r =>
    have : ∀ l : List Str, (l.flatMap fun t => a.expand.map (· ++ t)).length = a.expand.length * l.length := by
      intro l
      induction l with
      | nil => simp
      | cons t l ih => rw [List.flatMap_cons, List.length_append, ih, List.length_map, List.length_cons, Nat.mul_succ, Nat.add_comm]
    rw [Item.expand, this, expand_lengthI r, expand_lengthA a, Item.number]
termination_by i.nodes
decreasing_by
  all_goals
    simp only [Item.nodes]
    omega
end

/-- C11 (missing: as in `C11_partial`): the number of alternatives is obtained from sums and products. -/
theorem C11_count_partial (a : Alts) (h : a.Plain) : ∃ f0, ∀ fuel, f0 ≤ fuel →
    ∃ l, split fuel a.text = some l ∧ l.length = a.number := by
  obtain ⟨f0, hf⟩ := C11_partial a h
  exact ⟨f0, fun fuel hfuel => ⟨_, hf fuel hfuel, expand_lengthA a⟩⟩

example : sampleExpr.number = 3 := rfl

/-- C11 does not hold in general: `split('<0>')` does not terminate. -/
theorem C11_violated : ∀ fuel, split fuel "<0>".toList = none := by
  intro fuel
  have hf : ∀ f, factorize ["<0>".toList] f "<0>".toList = none := by
    intro f
    induction f with
    | zero => rfl
    | succ f ih =>
      unfold factorize
      have h1 : lastGroup ("<0>".toList.takeWhile (· ≠ '\n')) = some ([], 0, []) := by decide
      rw [h1]
      simp only [List.getElem?_cons_zero]
      have h2 : splitOn "<0>".toList = ["<0>".toList] := by decide
      have h3 : [] ++ (strip "<0>".toList ++ []) = "<0>".toList := by decide
      rw [h2, List.mapM_cons, h3, ih]
      rfl
  have hp : pass [] "{<0>}".toList = ("<0>".toList, ["<0>".toList]) := by
    have := pass_close [] "<0>}".toList [] (by decide)
    rw [pass_nil] at this
    exact this
  have hp2 : pass ["<0>".toList] "<0>".toList = ("<0>".toList, ["<0>".toList]) := by
    have := pass_plain ["<0>".toList] "<0>".toList (by decide) []
    rwa [pass_nil, List.append_nil] at this
  unfold split
  cases fuel with
  | zero => rfl
  | succ f =>
    have e : packLoop (f + 1) [] ('{' :: ("<0>".toList ++ ['}'])) = packLoop f ["<0>".toList] "<0>".toList := by
      rw [packLoop]
      have : '{' :: ("<0>".toList ++ ['}']) = "{<0>}".toList := by decide
      rw [this, hp]
      simp
    rw [e]
    cases f with
    | zero => rfl
    | succ f =>
      rw [packLoop, hp2]
      simp only [if_true]
      exact hf _

end Verif.Split
