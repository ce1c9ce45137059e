import Mathlib.Data.Fin.VecNotation
import Verif.Text.NamelistRead

/-!
# Input files of Quantum ESPRESSO: `ph.x`, `q2r.x`, `matdyn.x`, `epw.x`

A dictionary of input parameters is a function `struct`: `struct k` is the value of `k` or `none` if there is none.
-/

namespace Verif.Namelist

open Verif.Text

/-- Text. -/
abbrev tx (s : String) : Str := s.toList

/-! ### Models -/

/-- Keys, `elphmod/bravais.py` 2256, 2262, 2268, 2274-2275. -/
def phKeys : List (List Str) :=
  [[tx "prefix", tx "outdir"], [tx "fildyn", tx "fildvscf"], [tx "ldisp", tx "nq1", tx "nq2", tx "nq3"],
    [tx "tr2_ph", tx "alpha_mix", tx "cdfpt", tx "subspace", tx "cdfpt_bnd", tx "cdfpt_orb"]]

/-- Groups of lines separated by empty lines. -/
def groups (rf : ℚ → Str) (struct : Str → Option Val) : List (List Str) → Str
  | [] => []
  | [g] => entries rf struct g
  | g :: r => entries rf struct g ++ '\n' :: groups rf struct r

/-- `elphmod/bravais.py` 2239-2278 (`write_ph`). -/
def writePh (rf : ℚ → Str) (struct : Str → Option Val) : Str :=
  tx "&INPUTPH\n" ++ groups rf struct phKeys ++ tx "/\n"

/-- Keys, `elphmod/bravais.py` 2311. -/
def q2rKeys : List Str := [tx "fildyn", tx "flfrc", tx "zasr"]

/-- `elphmod/bravais.py` 2295-2315 (`write_q2r`). -/
def writeQ2r (rf : ℚ → Str) (struct : Str → Option Val) : Str :=
  tx "&INPUT\n" ++ entries rf struct q2rKeys ++ tx "/\n"

/-- Keys, `elphmod/bravais.py` 2367-2368. -/
def matdynKeys : List Str :=
  [tx "flfrc", tx "flfrq", tx "fldos", tx "fleig", tx "flvec", tx "asr", tx "loto_2d", tx "q_in_band_form",
    tx "q_in_cryst_coord"]

/-- Wave vectors, `elphmod/bravais.py` 2373-2375. (Here, there are four numbers per point, as when reading.) -/
def qLine (q : Fin 4 → ℚ) : List Field :=
  [fFixed 0 12 9 (q 0), fFixed 1 12 9 (q 1), fFixed 1 12 9 (q 2), fFixed 1 12 9 (q 3)]

/-- `elphmod/bravais.py` 2349-2378 (`write_matdyn`); `nq` and `q` are `struct['nq']` and `struct['q']`. -/
def writeMatdyn (rf : ℚ → Str) (struct : Str → Option Val) (nq : Int) (q : List (Fin 4 → ℚ)) : Str :=
  tx "&INPUT\n" ++ entries rf struct matdynKeys ++ tx "/\n" ++ (fmt [fInt 0 0 nq] ++ ['\n']) ++
    q.flatMap fun q => fmt (qLine q) ++ ['\n']

/-- Loop over points, `elphmod/bravais.py` 2341-2345: points and remaining lines. -/
def readQ : Nat → List Str → Option (List (Fin 4 → ℚ) × List Str)
  | 0, ls => some ([], ls)
  | _ + 1, [] => none
  | n + 1, l :: ls => do
    let a ← ((words l)[0]?).bind readFloat
    let b ← ((words l)[1]?).bind readFloat
    let c ← ((words l)[2]?).bind readFloat
    let d ← ((words l)[3]?).bind readFloat
    let r ← readQ n ls
    pure (![a, b, c, d] :: r.1, r.2)

/-- Next line with words, `elphmod/bravais.py` 2333-2336: words and remaining lines. (If there is none, the list of words is
empty or that of the preceding line, which leads to an exception in most cases, here in all of them.) -/
def nextWords : List Str → Option (List Str × List Str)
  | [] => none
  | l :: ls => if words l = [] then nextWords ls else some (words l, ls)

/-- Loop over lines, `elphmod/bravais.py` 2330-2345: number and list of points (if any). The number is a bound of the
number of lines. -/
def scanQ : Nat → List Str → Option (Int × List (Fin 4 → ℚ)) → Option (Option (Int × List (Fin 4 → ℚ)))
  | 0, _, r => some r
  | _ + 1, [], r => some r
  | f + 1, l :: ls, r =>
    if '/' ∈ l then do
      let w ← nextWords ls
      let nq ← (w.1[0]?).bind readInt
      if nq < 0 then none
      let q ← readQ nq.toNat w.2
      scanQ f q.2 (some (nq, q.1))
    else scanQ f ls r

/-- `elphmod/bravais.py` 2317-2347 (`read_matdyn`) on one process: dictionary without `nq` and `q`, and these. -/
def readMatdyn (fuel : Nat) (text : Str) : Option (Dict × Option (Int × List (Fin 4 → ℚ))) := do
  let d ← readInput fuel text
  let q ← scanQ (lines text).length (lines text) none
  pure (d, q)

/-- Does Python take this value for false? -/
def falsy : Item → Bool
  | .int z => z == 0
  | .float x => x == 0
  | .bool b => !b
  | .str s => s.isEmpty
  | .none => true

/-- Name with index, `elphmod/bravais.py` 2481 and 2493 (`'proj(%d)'`, `'wdata(%d)'`) and 1926 (`'celldm(%d)'`). -/
def indexed (key : Str) (n : Nat) : Str := key ++ '(' :: showNat n ++ [')']

/-- Numbered parameters, `elphmod/bravais.py` 2478-2481, 2490-2493 and 1923-1926; `n` is the number of the first one. -/
def numbered (rf : ℚ → Str) (key : Str) : Nat → List Item → Str
  | _, [] => []
  | n, i :: l => (if falsy i then [] else entry (indexed key n) (reprItem rf i)) ++ numbered rf key (n + 1) l

/-- List of parameters, `if key in struct`. -/
def numberedOpt (rf : ℚ → Str) (struct : Str → Option Val) (key : Str) : Str :=
  match struct key with
  | some (.many l) => numbered rf key 1 l
  | some (.one (.str s)) => numbered rf key 1 (s.map fun c => .str [c])
  | _ => []

/-- Keys before the projections, `elphmod/bravais.py` 2439, 2445, 2451, 2457, 2463, 2469-2470. -/
def epwKeys1 : List (List Str) :=
  [[tx "prefix", tx "outdir", tx "dvscf_dir"], [tx "wannierize", tx "elph"], [tx "epbwrite", tx "epwwrite"],
    [tx "epbread", tx "epwread"], [tx "use_ws", tx "nbndsub", tx "bands_skipped"],
    [tx "dis_win_min", tx "dis_win_max", tx "dis_froz_min", tx "dis_froz_max"]]

/-- Keys after `wdata`, `elphmod/bravais.py` 2497, 2503, 2509, 2515. -/
def epwKeys2 : List (List Str) :=
  [[tx "nk1", tx "nk2", tx "nk3"], [tx "nq1", tx "nq2", tx "nq3"], [tx "nkf1", tx "nkf2", tx "nkf3"],
    [tx "nqf1", tx "nqf2", tx "nqf3"]]

/-- `elphmod/bravais.py` 2422-2518 (`write_epw`). (If `proj` or `wdata` are neither lists nor strings, there are exceptions
in the code, which are not modelled.) -/
def writeEpw (rf : ℚ → Str) (struct : Str → Option Val) : Str :=
  tx "&INPUTEPW\n" ++ groups rf struct epwKeys1 ++ '\n' :: numberedOpt rf struct (tx "proj") ++ '\n' ::
    (entries rf struct [tx "num_iter"] ++ numberedOpt rf struct (tx "wdata") ++ '\n' :: groups rf struct epwKeys2) ++
    tx "/\n"

/-- `if key in struct and not isinstance(struct[key], list): struct[key] = [struct[key]]`, `elphmod/bravais.py` 2396-2398
and 1813-1815. -/
def wrap (d : Dict) (key : Str) : Dict :=
  match d.lookup key with
  | some (.one i) => put d key (.many [i])
  | _ => d

/-- `elphmod/bravais.py` 2380-2420 (`read_epw`) on one process. -/
def readEpw (fuel : Nat) (text : Str) : Option Dict :=
  (readInput fuel text).map fun d => wrap (wrap d (tx "proj")) (tx "wdata")

/-! ### Lines of namelists -/

/-- Lines with the given keys. -/
def keyLines (struct : Str → Option Val) (keys : List Str) : List Line :=
  keys.filterMap fun k => match struct k with
    | some (.one i) => some (some (k, i))
    | _ => none

/-- The values for the given keys can be written and read. -/
def Fine (rf : ℚ → Str) (struct : Str → Option Val) (keys : List Str) : Prop :=
  ∀ k ∈ keys, ∀ v, struct k = some v → ∃ i, v = .one i ∧ ItemOk rf i

/-- Names without capital letters and indices. -/
structure Plain (k : Str) : Prop where
  good : Good k
  key : keyOf k = (k, 0)

/-- Decidable variant. -/
def plainB (k : Str) : Bool :=
  !k.isEmpty && decide (k.head? ≠ some '(') && k.all calm && decide (keyOf k = (k, 0))

theorem plain_of (k : Str) (h : plainB k = true) : Plain k := by
  simp only [plainB, Bool.and_eq_true, Bool.not_eq_true', List.all_eq_true, decide_eq_true_eq] at h
  exact ⟨⟨fun e => by simp [e] at h, h.1.1.2, h.1.2⟩, h.2⟩

theorem keyLines_text (rf : ℚ → Str) (struct : Str → Option Val) (keys : List Str) (h : Fine rf struct keys) :
    (keyLines struct keys).flatMap (lineText rf) = entries rf struct keys := by
  induction keys with
  | nil => rfl
  | cons k keys ih =>
    have hr : Fine rf struct keys := fun k hk => h k (by simp [hk])
    have hk := h k (by simp)
    unfold keyLines entries at *
    rw [List.filterMap_cons, List.flatMap_cons, ← ih hr]
    cases hv : struct k with
    | none => rfl
    | some v =>
      obtain ⟨i, rfl, _⟩ := hk v hv
      rfl

theorem keyLines_ok (rf : ℚ → Str) (struct : Str → Option Val) (keys : List Str) (h : Fine rf struct keys)
    (hk : ∀ k ∈ keys, Good k) : ∀ l ∈ keyLines struct keys, LineOk rf l := by
  intro l hl
  unfold keyLines at hl
  rw [List.mem_filterMap] at hl
  obtain ⟨k, hm, hl⟩ := hl
  cases hv : struct k with
  | none => simp [hv] at hl
  | some v =>
    obtain ⟨i, rfl, hi⟩ := h k hm v hv
    rw [hv] at hl
    simp only [Option.some.injEq] at hl
    subst hl
    exact ⟨hk k hm, hi⟩

/-- Lines of groups. -/
def groupLines (struct : Str → Option Val) : List (List Str) → List Line
  | [] => []
  | [g] => keyLines struct g
  | g :: r => keyLines struct g ++ none :: groupLines struct r

theorem groupLines_text (rf : ℚ → Str) (struct : Str → Option Val) (gs : List (List Str)) (h : Fine rf struct gs.flatten) :
    (groupLines struct gs).flatMap (lineText rf) = groups rf struct gs := by
  induction gs with
  | nil => rfl
  | cons g r ih =>
    have h1 : Fine rf struct g := fun k hk => h k (by simp [hk])
    have h2 : Fine rf struct r.flatten := fun k hk => h k (by
      rw [List.flatten_cons, List.mem_append]
      exact Or.inr hk)
    cases r with
    | nil => exact keyLines_text rf struct g h1
    | cons g' r =>
      have := ih h2
      rw [groupLines, groups, List.flatMap_append, List.flatMap_cons, keyLines_text rf struct g h1, this]
      · rfl
      · simp
      · simp

theorem groupLines_ok (rf : ℚ → Str) (struct : Str → Option Val) (gs : List (List Str)) (h : Fine rf struct gs.flatten)
    (hk : ∀ k ∈ gs.flatten, Good k) : ∀ l ∈ groupLines struct gs, LineOk rf l := by
  induction gs with
  | nil => simp [groupLines]
  | cons g r ih =>
    have h1 : Fine rf struct g := fun k hk => h k (by simp [hk])
    have hm : ∀ k ∈ r.flatten, k ∈ (g :: r).flatten := fun k hk => by
      rw [List.flatten_cons, List.mem_append]
      exact Or.inr hk
    have hg := keyLines_ok rf struct g h1 fun k hk' => hk k (by simp [hk'])
    cases r with
    | nil => exact hg
    | cons g' r =>
      have := ih (fun k hk => h k (hm k hk)) fun k hk' => hk k (hm k hk')
      intro l hl
      rw [groupLines, List.mem_append, List.mem_cons] at hl
      · rcases hl with hl | rfl | hl
        · exact hg l hl
        · trivial
        · exact this l hl
      · simp

/-! ### Values of keys -/

theorem collect_append (d : Raw) (ls ms : List Line) : collect d (ls ++ ms) = collect (collect d ls) ms := by
  induction ls generalizing d with
  | nil => rfl
  | cons l ls ih =>
    rcases l with _ | ⟨k, i⟩
    · exact ih d
    · exact ih _

/-- Names with equal index part do not matter for others. -/
theorem lookup_assign_ne (d : Raw) (k : Str) (i : Item) (k' : Str) (h : k' ≠ (keyOf k).1) :
    (assign d k i).lookup k' = d.lookup k' := by
  unfold assign
  simp only
  rw [lookup_put, if_neg h, lookup_put, if_neg h]

theorem lookup_assign_plain (d : Raw) (k : Str) (i : Item) (h : Plain k) :
    (assign d k i).lookup k = some (i :: ((d.lookup k).getD []).tail) := by
  unfold assign
  simp only [h.key]
  rw [lookup_put, if_pos rfl, lookup_put, if_pos rfl]
  have : ∀ l : List Item, sliceSet l 0 i = i :: l.tail := by
    intro l
    cases l <;> simp [sliceSet, bound]
  simp [pad, this]

theorem lookup_collect_ne (d : Raw) (ls : List Line) (k : Str) (h : ∀ k' i, some (k', i) ∈ ls → k ≠ (keyOf k').1) :
    (collect d ls).lookup k = d.lookup k := by
  induction ls generalizing d with
  | nil => rfl
  | cons l ls ih =>
    have hr : ∀ k' i, some (k', i) ∈ ls → k ≠ (keyOf k').1 := fun k' i hm => h k' i (by simp [hm])
    rcases l with _ | ⟨k', i⟩
    · exact ih d hr
    · rw [collect, ih _ hr, lookup_assign_ne _ _ _ _ (h k' i (by simp))]

theorem mem_keyLines (struct : Str → Option Val) (keys : List Str) (k : Str) (i : Item) :
    some (k, i) ∈ keyLines struct keys ↔ k ∈ keys ∧ struct k = some (.one i) := by
  unfold keyLines
  rw [List.mem_filterMap]
  constructor
  · rintro ⟨k', hm, e⟩
    split at e
    · next i' h =>
      simp only [Option.some.injEq, Prod.mk.injEq] at e
      obtain ⟨rfl, rfl⟩ := e
      exact ⟨hm, h⟩
    · simp at e
  · rintro ⟨hm, e⟩
    exact ⟨k, hm, by rw [e]⟩

theorem lookup_keyLines (rf : ℚ → Str) (struct : Str → Option Val) (keys : List Str) (h : Fine rf struct keys)
    (hp : ∀ k ∈ keys, Plain k) (hn : keys.Nodup) (d : Raw) (hd : ∀ k ∈ keys, d.lookup k = none) (k : Str) (hk : k ∈ keys) :
    (collect d (keyLines struct keys)).lookup k = match struct k with
      | some (.one i) => some [i]
      | _ => none := by
  induction keys generalizing d with
  | nil => simp at hk
  | cons a keys ih =>
    rw [List.nodup_cons] at hn
    have hr : Fine rf struct keys := fun k hk => h k (by simp [hk])
    have hpr : ∀ k ∈ keys, Plain k := fun k hk => hp k (by simp [hk])
    have ha := h a (by simp)
    have hka := (hp a (by simp)).key
    have e : keyLines struct (a :: keys) = (match struct a with
      | some (.one i) => [some (a, i)]
      | _ => []) ++ keyLines struct keys := by
      unfold keyLines
      rw [List.filterMap_cons]
      cases hv : struct a with
      | none => rfl
      | some v =>
        obtain ⟨i, rfl, _⟩ := ha v hv
        rfl
    rw [e, collect_append]
    by_cases hka' : k = a
    · subst hka'
      rw [lookup_collect_ne]
      · cases hv : struct k with
        | none => exact hd k (by simp)
        | some v =>
          obtain ⟨i, rfl, _⟩ := ha v hv
          simp only [collect]
          rw [lookup_assign_plain _ _ _ (hp k (by simp)), hd k (by simp)]
          rfl
      · intro k' i hm
        have := (mem_keyLines struct keys k' i).1 hm
        rw [(hpr k' this.1).key]
        rintro rfl
        exact hn.1 this.1
    · have hm : k ∈ keys := by simpa [hka'] using hk
      refine ih hr hpr hn.2 _ (fun k' hk' => ?_) hm
      cases hv : struct a with
      | none => exact hd k' (by simp [hk'])
      | some v =>
        obtain ⟨i, rfl, _⟩ := ha v hv
        simp only [collect]
        rw [lookup_assign_ne, hd k' (by simp [hk'])]
        rw [hka]
        rintro rfl
        exact hn.1 hk'

theorem collect_groupLines (struct : Str → Option Val) (gs : List (List Str)) (d : Raw) :
    collect d (groupLines struct gs) = collect d (keyLines struct gs.flatten) := by
  induction gs generalizing d with
  | nil => rfl
  | cons g r ih =>
    cases r with
    | nil => simp [groupLines]
    | cons g' r =>
      have e : keyLines struct (g :: g' :: r).flatten = keyLines struct g ++ keyLines struct (g' :: r).flatten := by
        simp [keyLines]
      rw [groupLines, collect_append, e, collect_append, ← ih]
      · rfl
      · simp

theorem put_nodup {α : Type} (d : List (Str × α)) (k : Str) (v : α) (h : (d.map Prod.fst).Nodup) :
    ((put d k v).map Prod.fst).Nodup := by
  unfold put
  split
  · have e : (d.map fun e => if e.1 = k then (k, v) else e).map Prod.fst = d.map Prod.fst := by
      rw [List.map_map]
      refine List.map_congr_left fun e _ => ?_
      simp only [Function.comp]
      split
      · next h => exact h.symm
      · rfl
    rwa [e]
  · next hk =>
    have : k ∉ d.map Prod.fst := by
      intro hm
      rw [List.mem_map] at hm
      obtain ⟨e, he, rfl⟩ := hm
      apply hk
      rw [List.lookup_isSome_iff]
      exact ⟨e, he, by simp⟩
    rw [List.map_append, List.nodup_append]
    refine ⟨h, by simp, ?_⟩
    intro a ha b hb
    simp only [List.map_cons, List.map_nil, List.mem_singleton] at hb
    subst hb
    rintro rfl
    exact this ha

theorem collect_nodup (d : Raw) (ls : List Line) (h : (d.map Prod.fst).Nodup) : ((collect d ls).map Prod.fst).Nodup := by
  induction ls generalizing d with
  | nil => exact h
  | cons l ls ih =>
    rcases l with _ | ⟨k, i⟩
    · exact ih d h
    · exact ih _ (put_nodup _ _ _ (put_nodup _ _ _ h))

theorem lookup_values (ls : List Line) (k : Str) :
    (values ls).lookup k = ((collect [] ls).lookup k).map single := by
  unfold values
  generalize collect [] ls = d
  induction d with
  | nil => rfl
  | cons e d ih =>
    obtain ⟨a, b⟩ := e
    rw [List.map_cons, List.lookup, List.lookup]
    cases k == a
    · exact ih
    · rfl

theorem values_nodup (ls : List Line) : ((values ls).map Prod.fst).Nodup := by
  have := collect_nodup [] ls (by simp)
  unfold values
  rwa [List.map_map, show (Prod.fst ∘ fun e : Str × List Item => (e.1, single e.2)) = Prod.fst from rfl]

theorem lookup_update (d e : Dict) (k : Str) (h : (e.map Prod.fst).Nodup) :
    (update d e).lookup k = (e.lookup k).or (d.lookup k) := by
  unfold update
  induction e generalizing d with
  | nil => rfl
  | cons x e ih =>
    obtain ⟨a, b⟩ := x
    rw [List.map_cons, List.nodup_cons] at h
    rw [List.foldl_cons, ih _ h.2, lookup_put, List.lookup]
    by_cases hk : k = a
    · subst hk
      have : e.lookup k = none := by
        rw [List.lookup_eq_none_iff]
        intro p hp
        simp only [bne_iff_ne, ne_eq]
        rintro rfl
        exact h.1 (List.mem_map.2 ⟨p, hp, rfl⟩)
      simp [this]
    · have hb : (k == a) = false := by simp [hk]
      simp only [hb, if_neg hk]

/-- Reading of a file with a single namelist. -/
theorem readInput_block (rf : ℚ → Str) (fuel : Nat) (hf : 2 ≤ fuel) (b : Block) (h : BlockOk rf b) (t : Str) (ht : TailOk t) :
    ∃ d, readInput fuel (blockText rf b ++ t) = some d ∧ ∀ k, d.lookup k = ((collect [] b.2).lookup k).map single := by
  have := readNamelists_blocks rf fuel hf [b] (by simp) (by simpa using h) t ht
  simp only [List.flatMap_cons, List.flatMap_nil, List.append_nil] at this
  refine ⟨update [] (values b.2), ?_, fun k => ?_⟩
  · unfold readInput
    rw [this]
    simp [gather, put]
  · rw [lookup_update _ _ _ (values_nodup b.2), lookup_values]
    simp

theorem tailOk_nil : TailOk [] := ⟨by simp, by simp, by simp⟩

/-- Reading of a file with a single namelist with groups of parameters. -/
theorem read_groups (rf : ℚ → Str) (fuel : Nat) (hf : 2 ≤ fuel) (name : Str) (hn : name ≠ [])
    (hw : ∀ c ∈ name, isWord c = true ∧ isQuote c = false ∧ c ≠ '!') (struct : Str → Option Val) (gs : List (List Str))
    (h : Fine rf struct gs.flatten) (hp : ∀ k ∈ gs.flatten, Plain k) (hnd : gs.flatten.Nodup) (t : Str) (ht : TailOk t) :
    ∃ d, readInput fuel ('&' :: name ++ '\n' :: (groups rf struct gs ++ ['/', '\n']) ++ t) = some d ∧
      ∀ k, d.lookup k = if k ∈ gs.flatten then struct k else none := by
  obtain ⟨d, hd, hk⟩ := readInput_block rf fuel hf (name, groupLines struct gs)
    ⟨hn, hw, groupLines_ok rf struct gs h fun k hk => (hp k hk).good⟩ t ht
  refine ⟨d, ?_, fun k => ?_⟩
  · rw [← hd, blockText, groupLines_text rf struct gs h]
  · rw [hk, collect_groupLines]
    split
    · next hm =>
      rw [lookup_keyLines rf struct _ h hp hnd [] (by simp) k hm]
      cases hv : struct k with
      | none => rfl
      | some v =>
        obtain ⟨i, rfl, _⟩ := h k hm v hv
        rfl
    · next hm =>
      rw [lookup_collect_ne]
      · rfl
      · intro k' i hi
        have := ((mem_keyLines struct _ k' i).1 hi).1
        rw [(hp k' this).key]
        rintro rfl
        exact hm this

end Verif.Namelist
