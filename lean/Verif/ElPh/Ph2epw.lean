import Verif.Text.Lemmas
import Mathlib.Logic.Function.Basic
import Mathlib.Tactic.IntervalCases

/-!
# Collection of EPW input: `elph.ph2epw`

The file system is a function from paths to files or directories. Paths are compared as text (no links, no `..`). The result of `glob` is a parameter
related to the file system by `Matches`. Directories given as arguments have no wildcards in their names. One process.
-/

namespace Verif.Ph2epw

open Verif.Text (Str showNat readDigits_showNat)

/-- A file with its content or a directory. -/
inductive Node
  | file (content : Str)
  | dir

abbrev Fs := Str → Option Node

/-- `os.path.isfile` -/
def isFile (fs : Fs) (p : Str) : Bool :=
  match fs p with
  | some (.file _) => true
  | _ => false

/-- `os.path.isdir` -/
def isDir (fs : Fs) (p : Str) : Bool :=
  match fs p with
  | some .dir => true
  | _ => false

/-- `os.path.basename` -/
def basename (p : Str) : Str := (p.reverse.takeWhile (· ≠ '/')).reverse

/-- `shutil.copy2` (without meta data): `none` stands for exceptions. -/
def copy2 (fs : Fs) (src dst : Str) : Option Fs :=
  let dst := if isDir fs dst then dst ++ '/' :: basename src else dst
  if src = dst ∨ isDir fs dst = true then none
  else match fs src with
    | some (.file c) => some (Function.update fs dst (some (.file c)))
    | _ => none

/-- Result of `shutil.copytree`. -/
inductive Tree
  | ok (fs : Fs)
  | fileExists
  | error

/-- Proper ancestor directories. -/
def ancestor (p dst : Str) : Bool := p ≠ [] && (p ++ ['/']).isPrefixOf dst

/-- `shutil.copytree`: creates the directory and its missing ancestors. -/
def copytree (fs : Fs) (src dst : Str) : Tree :=
  if isDir fs src = false then .error
  else if (fs dst).isSome then .fileExists
  else if dst.inits.any fun p => ancestor p dst && isFile fs p then .error
  else .ok fun p =>
    if p = dst then some .dir
    else if (dst ++ ['/']).isPrefixOf p then fs (src ++ '/' :: p.drop (dst.length + 1))
    else if (fs p).isNone && ancestor p dst then some .dir
    else fs p

/-- `elphmod/elph.py` 1676: `'%s%d%s' % (fildyn, n, ext)` -/
def dynFile (fildyn ext : Str) (n : Nat) : Str := fildyn ++ (showNat n ++ ext)

/-- `elphmod/elph.py` 1681: `'%s/%s.dyn_q%d%s' % (dvscf_dir, prefix, n, ext)` -/
def dynDest (dvscfDir pre ext : Str) (n : Nat) : Str := dvscfDir ++ '/' :: (pre ++ '.' :: ("dyn_q".toList ++ (showNat n ++ ext)))

/-- `elphmod/elph.py` 1683-1689: original file of the potential -/
def origFile (outdir pre suffix : Str) (n : Nat) : Str :=
  let orig := outdir ++ "/_ph0".toList
  let orig := if n > 1 then orig ++ '/' :: (pre ++ (".q_".toList ++ showNat n)) else orig
  orig ++ '/' :: (pre ++ '.' :: (suffix ++ ['1']))

/-- `elphmod/elph.py` 1692-1693: `'%s/%s.%s_q%d' % (dvscf_dir, prefix, suffix, n)` -/
def potDest (dvscfDir pre suffix : Str) (n : Nat) : Str := dvscfDir ++ '/' :: (pre ++ '.' :: (suffix ++ ("_q".toList ++ showNat n)))

/-- `elphmod/elph.py` 1688-1693: body of loop over suffixes -/
def copyPot (outdir dvscfDir pre : Str) (n : Nat) (fs : Fs) (suffix : Str) : Option Fs :=
  if isFile fs (origFile outdir pre suffix n) then copy2 fs (origFile outdir pre suffix n) (potDest dvscfDir pre suffix n) else some fs

/-- `elphmod/elph.py` 1672-1693: loop over files, `fuel` is the maximum number of iterations. -/
def loop (fildyn ext outdir dvscfDir pre : Str) : Nat → Nat → Fs → Option Fs
  | 0, _, _ => none
  | fuel + 1, n, fs =>
    if isFile fs (dynFile fildyn ext n) = false then some fs
    else ((copy2 fs (dynFile fildyn ext n) (dynDest dvscfDir pre ext n)).bind fun fs =>
      ["dvscf".toList, "dvscf_paw".toList].foldlM (copyPot outdir dvscfDir pre n) fs).bind (loop fildyn ext outdir dvscfDir pre fuel (n + 1))

/-- Outcome of the command. -/
inductive Out
  | usage
  | error
  | exists' (fs : Fs)
  | done (fs : Fs)

/-- `elphmod/elph.py` 1625-1693 (`ph2epw`): `glob` is the list of all matches. -/
def ph2epw (fuel : Nat) (env : String → Option Str) (glob : List Str) (fs : Fs) (fildyn outdir dvscfDir : Str) : Out :=
  let fildyn := (env "fildyn").getD fildyn
  let outdir := (env "outdir").getD outdir
  let dvscfDir := (env "dvscf_dir").getD dvscfDir
  let fildyn := if ".xml".toList <:+ fildyn then fildyn.take (fildyn.length - 4) else fildyn
  let ext := if isFile fs (fildyn ++ "1.xml".toList) then ".xml".toList else []
  if isFile fs (fildyn ++ '1' :: ext) = false ∨ isDir fs outdir = false then .usage
  else match glob with
    | [phsave] =>
      let pre := (phsave.take (phsave.length - 7)).drop (outdir.length + 6)
      match copytree fs phsave (dvscfDir ++ '/' :: (pre ++ ".phsave".toList)) with
      | .fileExists => .exists' fs
      | .error => .error
      | .ok fs =>
        match loop fildyn ext outdir dvscfDir pre fuel 1 fs with
        | none => .error
        | some fs => .done fs
    | _ => .error

/-- The matches of `'%s/_ph0/*.phsave' % outdir`. -/
def Matches (fs : Fs) (outdir : Str) (glob : List Str) : Prop :=
  glob.Nodup ∧ ∀ p, p ∈ glob ↔ (fs p).isSome ∧ ∃ name, p = outdir ++ ("/_ph0/".toList ++ (name ++ ".phsave".toList)) ∧ '/' ∉ name ∧
    (name ++ ".phsave".toList).head? ≠ some '.'

/-! ### Lemmas -/

theorem showNat_inj {m n : Nat} (h : showNat m = showNat n) : m = n := by
  have := readDigits_showNat m
  rw [h, readDigits_showNat] at this
  exact (Option.some.inj this).symm

/-- Copying one file that may not exist. -/
def copyIf (fs : Fs) (e : Str × Str) : Fs := if isFile fs e.1 then Function.update fs e.2 (fs e.1) else fs

theorem isFile_congr {fs fs' : Fs} {p p' : Str} (h : fs p = fs' p') : isFile fs p = isFile fs' p' := by
  unfold isFile
  rw [h]

theorem isDir_congr {fs fs' : Fs} {p p' : Str} (h : fs p = fs' p') : isDir fs p = isDir fs' p' := by
  unfold isDir
  rw [h]

theorem isDir_of_isFile {fs : Fs} {p : Str} (h : isFile fs p = true) : isDir fs p = false := by
  unfold isFile at h
  unfold isDir
  split at h
  · next heq => rw [heq]
  · simp at h

theorem copy2_eq {fs : Fs} {src dst : Str} (h1 : src ≠ dst) (h2 : isDir fs dst = false) (h3 : isFile fs src = true) :
    copy2 fs src dst = some (copyIf fs (src, dst)) := by
  unfold copy2 copyIf
  simp only [h2, h3, Bool.false_eq_true, if_false, h1, or_self, if_true]
  unfold isFile at h3
  split at h3
  · next heq => rw [heq]
  · simp at h3

theorem copyIf_ne (fs : Fs) (e : Str × Str) (p : Str) (h : p ≠ e.2) : copyIf fs e p = fs p := by
  unfold copyIf
  split
  · exact Function.update_of_ne h _ _
  · rfl

theorem copyIf_dst (fs : Fs) (e : Str × Str) : copyIf fs e e.2 = if isFile fs e.1 then fs e.1 else fs e.2 := by
  unfold copyIf
  split
  · exact Function.update_self _ _ _
  · rfl

theorem copyIf_isDir (fs : Fs) (e : Str × Str) (p : Str) (h : isDir fs p = false) : isDir (copyIf fs e) p = false := by
  by_cases hp : p = e.2
  · subst hp
    by_cases hf : isFile fs e.1 = true
    · rw [isDir_congr (fs' := fs) (p' := e.1) (by rw [copyIf_dst, if_pos hf])]
      exact isDir_of_isFile hf
    · rw [isDir_congr (fs' := fs) (p' := e.2) (by rw [copyIf_dst, if_neg hf])]
      exact h
  · rw [isDir_congr (copyIf_ne fs e p hp)]
    exact h

theorem fold_ne (l : List (Str × Str)) (fs : Fs) (p : Str) (h : ∀ e ∈ l, p ≠ e.2) : l.foldl copyIf fs p = fs p := by
  induction l generalizing fs with
  | nil => rfl
  | cons a l ih =>
    rw [List.foldl_cons, ih _ fun e he => h e (List.mem_cons_of_mem _ he), copyIf_ne _ _ _ (h a List.mem_cons_self)]

theorem fold_isDir (l : List (Str × Str)) (fs : Fs) (p : Str) (h : isDir fs p = false) : isDir (l.foldl copyIf fs) p = false := by
  induction l generalizing fs with
  | nil => exact h
  | cons a l ih => exact ih _ (copyIf_isDir fs a p h)

theorem fold_dst (l : List (Str × Str)) (fs : Fs) (h1 : ∀ e ∈ l, ∀ e' ∈ l, e.1 ≠ e'.2) (h2 : ∀ e ∈ l, ∀ e' ∈ l, e.2 = e'.2 → e.1 = e'.1)
    (e : Str × Str) (he : e ∈ l) : l.foldl copyIf fs e.2 = if isFile fs e.1 then fs e.1 else fs e.2 := by
  induction l generalizing fs e with
  | nil => simp at he
  | cons a l ih =>
    have ih' := ih (copyIf fs a) (fun e he e' he' => h1 e (List.mem_cons_of_mem _ he) e' (List.mem_cons_of_mem _ he'))
      fun e he e' he' => h2 e (List.mem_cons_of_mem _ he) e' (List.mem_cons_of_mem _ he')
    rw [List.foldl_cons]
    have hsrc : copyIf fs a e.1 = fs e.1 := copyIf_ne _ _ _ (h1 e he a List.mem_cons_self)
    by_cases hl : ∃ e' ∈ l, e'.2 = e.2
    · obtain ⟨e', he', h⟩ := hl
      have hs := h2 e' (List.mem_cons_of_mem _ he') e he h
      rw [← h, ih' e' he', hs, isFile_congr hsrc, hsrc, h]
      by_cases hae : a.2 = e.2
      · have hs' := h2 a List.mem_cons_self e he hae
        rw [← hae, ← hs', copyIf_dst]
        split <;> rfl
      · rw [copyIf_ne _ _ _ fun h => hae h.symm]
    · rw [fold_ne _ _ _ fun e' he' h => hl ⟨e', he', h.symm⟩]
      rcases List.mem_cons.1 he with h | h
      · subst h
        exact copyIf_dst _ _
      · exact absurd ⟨e, h, rfl⟩ hl

/-- The files to be copied for one point. -/
def step (fildyn ext outdir dvscfDir pre : Str) (n : Nat) : List (Str × Str) :=
  [(dynFile fildyn ext n, dynDest dvscfDir pre ext n), (origFile outdir pre "dvscf".toList n, potDest dvscfDir pre "dvscf".toList n),
    (origFile outdir pre "dvscf_paw".toList n, potDest dvscfDir pre "dvscf_paw".toList n)]

theorem copyPot_eq (outdir dvscfDir pre suffix : Str) (n : Nat) (fs : Fs) (h1 : origFile outdir pre suffix n ≠ potDest dvscfDir pre suffix n)
    (h2 : isDir fs (potDest dvscfDir pre suffix n) = false) :
    copyPot outdir dvscfDir pre n fs suffix = some (copyIf fs (origFile outdir pre suffix n, potDest dvscfDir pre suffix n)) := by
  unfold copyPot
  split
  · next h => exact copy2_eq h1 h2 h
  · next h => rw [copyIf, if_neg h]

theorem loop_eq (fildyn ext outdir dvscfDir pre : Str) (N : Nat) (n fuel : Nat) (hfuel : N < fuel) (fs : Fs)
    (hsrc : ∀ n, ∀ e ∈ step fildyn ext outdir dvscfDir pre n, ∀ n', ∀ e' ∈ step fildyn ext outdir dvscfDir pre n', e.1 ≠ e'.2)
    (hdir : ∀ n, ∀ e ∈ step fildyn ext outdir dvscfDir pre n, isDir fs e.2 = false)
    (hN : ∀ i < N, isFile fs (dynFile fildyn ext (n + i)) = true) (hN' : isFile fs (dynFile fildyn ext (n + N)) = false) :
    loop fildyn ext outdir dvscfDir pre fuel n fs =
      some (((List.range N).flatMap fun i => step fildyn ext outdir dvscfDir pre (n + i)).foldl copyIf fs) := by
  induction N generalizing n fuel fs with
  | zero =>
    obtain ⟨fuel, rfl⟩ : ∃ f, fuel = f + 1 := ⟨fuel - 1, by omega⟩
    unfold loop
    rw [if_pos (by simpa using hN')]
    rfl
  | succ N ih =>
    obtain ⟨fuel, rfl⟩ : ∃ f, fuel = f + 1 := ⟨fuel - 1, by omega⟩
    unfold loop
    have h0 : isFile fs (dynFile fildyn ext n) = true := by simpa using hN 0 (by omega)
    rw [h0, if_neg (by simp)]
    rw [copy2_eq (hsrc n _ List.mem_cons_self n _ List.mem_cons_self) (hdir n _ List.mem_cons_self) h0]
    simp only [List.foldlM_cons, List.foldlM_nil, Option.bind_some, Option.bind_eq_bind, Option.pure_def]
    have m1 : (dynFile fildyn ext n, dynDest dvscfDir pre ext n) ∈ step fildyn ext outdir dvscfDir pre n := by simp [step]
    have m2 : (origFile outdir pre "dvscf".toList n, potDest dvscfDir pre "dvscf".toList n) ∈ step fildyn ext outdir dvscfDir pre n := by simp [step]
    have m3 : (origFile outdir pre "dvscf_paw".toList n, potDest dvscfDir pre "dvscf_paw".toList n) ∈ step fildyn ext outdir dvscfDir pre n := by
      simp [step]
    rw [copyPot_eq _ _ _ _ _ _ (hsrc n _ m2 n _ m2) (copyIf_isDir _ _ _ (hdir n _ m2)), Option.bind_some,
      copyPot_eq _ _ _ _ _ _ (hsrc n _ m3 n _ m3) (copyIf_isDir _ _ _ (copyIf_isDir _ _ _ (hdir n _ m3))), Option.bind_some, Option.bind_some]
    have hstep : ∀ fs', (step fildyn ext outdir dvscfDir pre n).foldl copyIf fs' = copyIf (copyIf (copyIf fs' (dynFile fildyn ext n, dynDest dvscfDir pre ext n))
        (origFile outdir pre "dvscf".toList n, potDest dvscfDir pre "dvscf".toList n))
        (origFile outdir pre "dvscf_paw".toList n, potDest dvscfDir pre "dvscf_paw".toList n) := fun fs' => rfl
    rw [← hstep]
    have hsame : ∀ i, isFile ((step fildyn ext outdir dvscfDir pre n).foldl copyIf fs) (dynFile fildyn ext i) = isFile fs (dynFile fildyn ext i) :=
      fun i => isFile_congr (fold_ne _ _ _ fun e he => hsrc i (dynFile fildyn ext i, dynDest dvscfDir pre ext i) (by simp [step]) n e he)
    rw [ih (n + 1) fuel (by omega) _ (fun m e he => fold_isDir _ _ _ (hdir m e he))
      (fun i hi => by rw [hsame, show n + 1 + i = n + (i + 1) by omega]; exact hN (i + 1) (by omega))
      (by rw [hsame, show n + 1 + N = n + (N + 1) by omega]; exact hN')]
    rw [List.range_succ_eq_map, List.flatMap_cons, List.foldl_append, List.flatMap_map]
    congr 3
    funext i
    rw [show n + 1 + i = n + (i + 1) by omega]

/-! ### Properties -/

/-- Start of all paths in the target directory that belong to the calculation. -/
def target (dvscfDir pre : Str) : Str := dvscfDir ++ '/' :: (pre ++ ['.'])

theorem step_target (fildyn ext outdir dvscfDir pre : Str) (n : Nat) (e : Str × Str) (he : e ∈ step fildyn ext outdir dvscfDir pre n) :
    ∃ s, e.2 = target dvscfDir pre ++ 'd' :: s := by
  simp only [step, List.mem_cons, List.not_mem_nil, or_false] at he
  rcases he with rfl | rfl | rfl
  · exact ⟨"yn_q".toList ++ (showNat n ++ ext), by simp [dynDest, target]⟩
  · exact ⟨"vscf_q".toList ++ showNat n, by simp [potDest, target]⟩
  · exact ⟨"vscf_paw_q".toList ++ showNat n, by simp [potDest, target]⟩

theorem step_inj (fildyn ext outdir dvscfDir pre : Str) (n n' : Nat) (e e' : Str × Str) (he : e ∈ step fildyn ext outdir dvscfDir pre n)
    (he' : e' ∈ step fildyn ext outdir dvscfDir pre n') (h : e.2 = e'.2) : e.1 = e'.1 ∧ n = n' := by
  simp only [step, List.mem_cons, List.not_mem_nil, or_false] at he he'
  rcases he with rfl | rfl | rfl <;> rcases he' with rfl | rfl | rfl <;> simp [dynDest, potDest] at h
  all_goals
    have := showNat_inj h
    subst this
    exact ⟨rfl, rfl⟩

/-- Command-line situation in which files are copied: names, source files and directories exist, target does not. -/
structure Ready (fs : Fs) (fildyn ext outdir dvscfDir pre : Str) (N : Nat) : Prop where
  noxml : ¬ ".xml".toList <:+ fildyn
  hext : ext = if isFile fs (fildyn ++ "1.xml".toList) then ".xml".toList else []
  pos : 0 < N
  dyn : ∀ n, 1 ≤ n → n ≤ N → isFile fs (fildyn ++ (showNat n ++ ext)) = true
  gap : isFile fs (fildyn ++ (showNat (N + 1) ++ ext)) = false
  houtdir : isDir fs outdir = true
  phsave : isDir fs (outdir ++ ("/_ph0/".toList ++ (pre ++ ".phsave".toList))) = true
  fresh : fs (dvscfDir ++ '/' :: (pre ++ ".phsave".toList)) = none
  parents : ∀ p, (p ++ ['/']) <+: dvscfDir ++ '/' :: (pre ++ ".phsave".toList) → isFile fs p = false
  nodir : ∀ s, isDir fs (target dvscfDir pre ++ 'd' :: s) = false
  dynOut : ∀ s, ¬ target dvscfDir pre <+: fildyn ++ s
  potOut : ∀ s, ¬ target dvscfDir pre <+: outdir ++ ("/_ph0".toList ++ s)

theorem prefix_eq (outdir pre : Str) :
    ((outdir ++ ("/_ph0/".toList ++ (pre ++ ".phsave".toList))).take ((outdir ++ ("/_ph0/".toList ++ (pre ++ ".phsave".toList))).length - 7)).drop
      (outdir.length + 6) = pre := by
  have h : outdir ++ ("/_ph0/".toList ++ (pre ++ ".phsave".toList)) = (outdir ++ "/_ph0/".toList) ++ pre ++ ".phsave".toList := by simp
  rw [h, List.length_append, show (".phsave".toList).length = 7 from rfl, Nat.add_sub_cancel, List.take_left, 
    show outdir.length + 6 = (outdir ++ "/_ph0/".toList).length by simp, List.drop_left]

theorem copytree_ok (fs : Fs) (src dst : Str) (h1 : isDir fs src = true) (h2 : fs dst = none) (h3 : ∀ p, (p ++ ['/']) <+: dst → isFile fs p = false) :
    copytree fs src dst = .ok fun p =>
      if p = dst then some .dir
      else if (dst ++ ['/']).isPrefixOf p then fs (src ++ '/' :: p.drop (dst.length + 1))
      else if (fs p).isNone && ancestor p dst then some .dir
      else fs p := by
  unfold copytree
  rw [h1, h2, if_neg (by simp), if_neg (by simp), if_neg]
  simp only [List.any_eq_true, not_exists, not_and, Bool.and_eq_true, ancestor, List.isPrefixOf_iff_prefix]
  intro p _ hp
  rw [h3 p hp.2]
  simp

theorem ready_origFile {fs : Fs} {fildyn ext outdir dvscfDir pre : Str} {N : Nat} (h : Ready fs fildyn ext outdir dvscfDir pre N) (suffix : Str) (n : Nat) :
    ¬ target dvscfDir pre <+: origFile outdir pre suffix n := by
  have e : ∃ s, origFile outdir pre suffix n = outdir ++ ("/_ph0".toList ++ s) := by
    unfold origFile
    dsimp only
    split
    · exact ⟨'/' :: (pre ++ (".q_".toList ++ showNat n)) ++ '/' :: (pre ++ '.' :: (suffix ++ ['1'])), by simp⟩
    · exact ⟨'/' :: (pre ++ '.' :: (suffix ++ ['1'])), by simp⟩
  obtain ⟨s, e⟩ := e
  rw [e]
  exact h.potOut s

theorem ready_src {fs : Fs} {fildyn ext outdir dvscfDir pre : Str} {N : Nat} (h : Ready fs fildyn ext outdir dvscfDir pre N) (n : Nat)
    (e : Str × Str) (he : e ∈ step fildyn ext outdir dvscfDir pre n) : ¬ target dvscfDir pre <+: e.1 := by
  simp only [step, List.mem_cons, List.not_mem_nil, or_false] at he
  rcases he with rfl | rfl | rfl
  · exact h.dynOut _
  · exact ready_origFile h _ _
  · exact ready_origFile h _ _

/-- C147: the dynamical matrices up to the first gap and the corresponding potentials that exist are copied, as well as the directory with the patterns;
nothing else is changed. -/
theorem C147_copied (fs : Fs) (fildyn ext outdir dvscfDir pre : Str) (N fuel : Nat) (h : Ready fs fildyn ext outdir dvscfDir pre N) (hfuel : N < fuel) :
    ∃ fs', ph2epw fuel (fun _ => none) [outdir ++ ("/_ph0/".toList ++ (pre ++ ".phsave".toList))] fs fildyn outdir dvscfDir = .done fs' ∧
      (∀ n, 1 ≤ n → n ≤ N → fs' (dvscfDir ++ '/' :: (pre ++ (".dyn_q".toList ++ (showNat n ++ ext)))) = fs (fildyn ++ (showNat n ++ ext))) ∧
      (∀ n, 1 ≤ n → n ≤ N → ∀ suffix ∈ ["dvscf".toList, "dvscf_paw".toList],
        fs' (dvscfDir ++ '/' :: (pre ++ '.' :: (suffix ++ ("_q".toList ++ showNat n)))) =
          if isFile fs (origFile outdir pre suffix n) then fs (origFile outdir pre suffix n)
          else fs (dvscfDir ++ '/' :: (pre ++ '.' :: (suffix ++ ("_q".toList ++ showNat n))))) ∧
      (∀ s, fs' (dvscfDir ++ '/' :: (pre ++ (".phsave/".toList ++ s))) = fs (outdir ++ ("/_ph0/".toList ++ (pre ++ (".phsave/".toList ++ s))))) ∧
      fs' (dvscfDir ++ '/' :: (pre ++ ".phsave".toList)) = some .dir ∧
      (∀ p, (∀ n, 1 ≤ n → n ≤ N → p ≠ dvscfDir ++ '/' :: (pre ++ (".dyn_q".toList ++ (showNat n ++ ext)))) →
        (∀ n, 1 ≤ n → n ≤ N → ∀ suffix ∈ ["dvscf".toList, "dvscf_paw".toList], p ≠ dvscfDir ++ '/' :: (pre ++ '.' :: (suffix ++ ("_q".toList ++ showNat n)))) →
        ¬ dvscfDir ++ '/' :: (pre ++ ".phsave".toList) <+: p → fs' p = fs p ∨ (fs p = none ∧ fs' p = some .dir ∧ (p ++ ['/']) <+: dvscfDir ++ '/' :: (pre ++ ".phsave".toList))) := by
  set src := outdir ++ ("/_ph0/".toList ++ (pre ++ ".phsave".toList)) with hsrcdef
  set dst := dvscfDir ++ '/' :: (pre ++ ".phsave".toList) with hdst
  set fs1 : Fs := fun p =>
    if p = dst then some .dir
    else if (dst ++ ['/']).isPrefixOf p then fs (src ++ '/' :: p.drop (dst.length + 1))
    else if (fs p).isNone && ancestor p dst then some .dir
    else fs p with hfs1
  have htd : target dvscfDir pre <+: dst := ⟨"phsave".toList, by simp [target, hdst]⟩
  -- paths of which nothing starts with the target
  have hfile : ∀ p, ¬ target dvscfDir pre <+: p → fs1 p = fs p ∨ (fs p = none ∧ fs1 p = some .dir ∧ (p ++ ['/']) <+: dst) := by
    intro p hp
    have h1 : p ≠ dst := fun he => hp (he ▸ htd)
    have h2 : (dst ++ ['/']).isPrefixOf p = false := by
      rw [Bool.eq_false_iff, ne_eq, List.isPrefixOf_iff_prefix]
      exact fun he => hp ((htd.trans (List.prefix_append _ _)).trans he)
    simp only [hfs1, if_neg h1, h2, Bool.false_eq_true, if_false]
    split
    · next ha =>
      simp only [Bool.and_eq_true, Option.isNone_iff_eq_none, ancestor, List.isPrefixOf_iff_prefix] at ha
      exact Or.inr ⟨ha.1, rfl, ha.2.2⟩
    · exact Or.inl rfl
  have hd : ∀ s, fs1 (target dvscfDir pre ++ 'd' :: s) = fs (target dvscfDir pre ++ 'd' :: s) := by
    intro s
    have e : dst = target dvscfDir pre ++ 'p' :: "hsave".toList := by simp [target, hdst]
    have h1 : target dvscfDir pre ++ 'd' :: s ≠ dst := by
      rw [e]
      intro he
      have := List.append_cancel_left he
      simp at this
    have h2 : (dst ++ ['/']).isPrefixOf (target dvscfDir pre ++ 'd' :: s) = false := by
      rw [Bool.eq_false_iff, ne_eq, List.isPrefixOf_iff_prefix, e, List.append_assoc, List.prefix_append_right_inj]
      simp
    have h3 : ancestor (target dvscfDir pre ++ 'd' :: s) dst = false := by
      unfold ancestor
      rw [Bool.and_eq_false_iff]
      right
      rw [Bool.eq_false_iff, ne_eq, List.isPrefixOf_iff_prefix, e, List.append_assoc, List.prefix_append_right_inj]
      simp
    simp only [hfs1, if_neg h1, h2, h3, Bool.and_false, Bool.false_eq_true, if_false]
  have hisFile : ∀ p, ¬ target dvscfDir pre <+: p → isFile fs1 p = isFile fs p := by
    intro p hp
    rcases hfile p hp with h | ⟨h, h', -⟩
    · exact isFile_congr h
    · unfold isFile
      rw [h, h']
  have hst : ∀ n, ∀ e ∈ step fildyn ext outdir dvscfDir pre n, ∀ n', ∀ e' ∈ step fildyn ext outdir dvscfDir pre n', e.1 ≠ e'.2 := by
    intro n e he n' e' he' heq
    obtain ⟨s, hs⟩ := step_target _ _ _ _ _ _ e' he'
    exact ready_src h n e he (heq ▸ hs ▸ List.prefix_append _ _)
  have hdir : ∀ n, ∀ e ∈ step fildyn ext outdir dvscfDir pre n, isDir fs1 e.2 = false := by
    intro n e he
    obtain ⟨s, hs⟩ := step_target _ _ _ _ _ _ e he
    rw [hs, isDir_congr (hd s)]
    exact h.nodir s
  have hloop := loop_eq fildyn ext outdir dvscfDir pre N 1 fuel hfuel fs1 hst hdir
    (fun i hi => by
      rw [hisFile (dynFile fildyn ext (1 + i)) (h.dynOut _)]
      exact h.dyn (1 + i) (by omega) (by omega))
    (by
      rw [hisFile (dynFile fildyn ext (1 + N)) (h.dynOut _), Nat.add_comm]
      exact h.gap)
  set l := (List.range N).flatMap fun i => step fildyn ext outdir dvscfDir pre (1 + i) with hl
  have hmem : ∀ e, e ∈ l ↔ ∃ n, 1 ≤ n ∧ n ≤ N ∧ e ∈ step fildyn ext outdir dvscfDir pre n := by
    intro e
    rw [hl, List.mem_flatMap]
    constructor
    · rintro ⟨i, hi, he⟩
      rw [List.mem_range] at hi
      exact ⟨1 + i, by omega, by omega, he⟩
    · rintro ⟨n, h1, h2, he⟩
      refine ⟨n - 1, by rw [List.mem_range]; omega, ?_⟩
      rw [show 1 + (n - 1) = n by omega]
      exact he
  have hfold := fold_dst l fs1 (fun e he e' he' => by
      obtain ⟨n, -, -, he⟩ := (hmem e).1 he
      obtain ⟨n', -, -, he'⟩ := (hmem e').1 he'
      exact hst n e he n' e' he')
    (fun e he e' he' heq => by
      obtain ⟨n, -, -, he⟩ := (hmem e).1 he
      obtain ⟨n', -, -, he'⟩ := (hmem e').1 he'
      exact (step_inj _ _ _ _ _ n n' e e' he he' heq).1)
  have hfold' : ∀ e ∈ l, l.foldl copyIf fs1 e.2 = if isFile fs e.1 then fs e.1 else fs e.2 := by
    intro e he
    rw [hfold e he]
    obtain ⟨n, -, -, he⟩ := (hmem e).1 he
    have hs := ready_src h n e he
    obtain ⟨s, hs'⟩ := step_target _ _ _ _ _ _ e he
    rw [hisFile _ hs, hs', hd s]
    split
    · next hf =>
      rcases hfile _ hs with h | ⟨h, -, -⟩
      · exact h
      · unfold isFile at hf
        rw [h] at hf
        simp at hf
    · rfl
  have hphsave : ∀ s, l.foldl copyIf fs1 (dst ++ s) = fs1 (dst ++ s) := by
    intro s
    refine fold_ne _ _ _ fun e he heq => ?_
    obtain ⟨n, -, -, he⟩ := (hmem e).1 he
    obtain ⟨t, ht⟩ := step_target _ _ _ _ _ _ e he
    rw [ht, show dst = target dvscfDir pre ++ 'p' :: "hsave".toList by simp [target, hdst], List.append_assoc] at heq
    have := List.append_cancel_left heq
    simp at this
  refine ⟨l.foldl copyIf fs1, ?_, ?_, ?_, ?_, ?_, ?_⟩
  · unfold ph2epw
    simp only [Option.getD_none, if_neg h.noxml, ← h.hext]
    have h1 : isFile fs (fildyn ++ '1' :: ext) = true := h.dyn 1 le_rfl h.pos
    rw [if_neg (by simp [h1, h.houtdir])]
    simp only [hsrcdef, prefix_eq]
    rw [← hsrcdef, ← hdst, copytree_ok fs src dst h.phsave h.fresh h.parents]
    simp only
    rw [← hfs1, hloop]
  · intro n h1 h2
    have := hfold' (dynFile fildyn ext n, dynDest dvscfDir pre ext n) ((hmem _).2 ⟨n, h1, h2, by simp [step]⟩)
    have hf : isFile fs (dynFile fildyn ext n) = true := h.dyn n h1 h2
    rw [if_pos hf] at this
    simpa [dynFile, dynDest] using this
  · intro n h1 h2 suffix hs
    refine hfold' (origFile outdir pre suffix n, potDest dvscfDir pre suffix n) ((hmem _).2 ⟨n, h1, h2, ?_⟩)
    simp only [List.mem_cons, List.not_mem_nil, or_false] at hs
    rcases hs with rfl | rfl <;> simp [step]
  · intro s
    have e : dvscfDir ++ '/' :: (pre ++ (".phsave/".toList ++ s)) = dst ++ '/' :: s := by simp [hdst]
    rw [e, hphsave]
    have h1 : dst ++ '/' :: s ≠ dst := by simp
    have h2 : (dst ++ ['/']).isPrefixOf (dst ++ '/' :: s) = true := by
      rw [List.isPrefixOf_iff_prefix]
      exact ⟨s, by simp⟩
    simp only [hfs1, if_neg h1, h2, if_true]
    rw [show dst ++ '/' :: s = (dst ++ ['/']) ++ s by simp, show dst.length + 1 = (dst ++ ['/']).length by simp, List.drop_left]
    congr 1
    simp [hsrcdef]
  · have := hphsave []
    rw [List.append_nil] at this
    rw [this]
    simp [hfs1]
  · intro p hp1 hp2 hp3
    rw [fold_ne]
    · have h1 : p ≠ dst := fun he => hp3 (he ▸ List.prefix_rfl)
      have h2 : (dst ++ ['/']).isPrefixOf p = false := by
        rw [Bool.eq_false_iff, ne_eq, List.isPrefixOf_iff_prefix]
        exact fun he => hp3 ((List.prefix_append _ _).trans he)
      simp only [hfs1, if_neg h1, h2, Bool.false_eq_true, if_false]
      split
      · next ha =>
        simp only [Bool.and_eq_true, Option.isNone_iff_eq_none, ancestor, List.isPrefixOf_iff_prefix] at ha
        exact Or.inr ⟨ha.1, rfl, ha.2.2⟩
      · exact Or.inl rfl
    · intro e he
      obtain ⟨n, h1, h2, he⟩ := (hmem e).1 he
      simp only [step, List.mem_cons, List.not_mem_nil, or_false] at he
      rcases he with rfl | rfl | rfl
      · simpa [dynDest] using hp1 n h1 h2
      · exact hp2 n h1 h2 _ (by simp)
      · exact hp2 n h1 h2 _ (by simp)

/-- C147: if the directory with the patterns has been copied before, even by a run that did not finish, nothing is copied and no error is raised. -/
theorem C147_exists (fs : Fs) (fildyn ext outdir dvscfDir pre : Str) (fuel : Nat) (hx : ¬ ".xml".toList <:+ fildyn)
    (hext : ext = if isFile fs (fildyn ++ "1.xml".toList) then ".xml".toList else []) (h1 : isFile fs (fildyn ++ '1' :: ext) = true)
    (ho : isDir fs outdir = true) (hp : isDir fs (outdir ++ ("/_ph0/".toList ++ (pre ++ ".phsave".toList))) = true)
    (hd : fs (dvscfDir ++ '/' :: (pre ++ ".phsave".toList)) ≠ none) :
    ph2epw fuel (fun _ => none) [outdir ++ ("/_ph0/".toList ++ (pre ++ ".phsave".toList))] fs fildyn outdir dvscfDir = .exists' fs := by
  unfold ph2epw
  simp only [Option.getD_none, if_neg hx, ← hext]
  rw [if_neg (by simp [h1, ho])]
  simp only [prefix_eq]
  unfold copytree
  rw [hp, if_neg (by simp), if_pos (Option.isSome_iff_ne_none.2 hd)]

/-- C147: environment variables take precedence over arguments; the ending of the file name is optional. -/
theorem C147_env (fs : Fs) (fildyn outdir dvscfDir : Str) (glob : List Str) (fuel : Nat) (env : String → Option Str) :
    ph2epw fuel env glob fs fildyn outdir dvscfDir =
        ph2epw fuel (fun _ => none) glob fs ((env "fildyn").getD fildyn) ((env "outdir").getD outdir) ((env "dvscf_dir").getD dvscfDir) ∧
      (¬ ".xml".toList <:+ fildyn → ph2epw fuel (fun _ => none) glob fs (fildyn ++ ".xml".toList) outdir dvscfDir =
        ph2epw fuel (fun _ => none) glob fs fildyn outdir dvscfDir) := by
  refine ⟨rfl, fun hx => ?_⟩
  unfold ph2epw
  simp only [Option.getD_none, if_neg hx, if_pos (List.suffix_append fildyn ".xml".toList)]
  rw [List.length_append, show (".xml".toList).length = 4 from rfl, Nat.add_sub_cancel, List.take_left]

/-- C147: without or with several directories of patterns, the command fails before anything is copied. -/
theorem C147_ambiguous (fs : Fs) (fildyn outdir dvscfDir : Str) (glob : List Str) (fuel : Nat) (env : String → Option Str) (fs' : Fs)
    (hg : Matches fs ((env "outdir").getD outdir) glob)
    (h : ph2epw fuel env glob fs fildyn outdir dvscfDir = .done fs' ∨ ph2epw fuel env glob fs fildyn outdir dvscfDir = .exists' fs') :
    ∃! p, (fs p).isSome ∧ ∃ name, p = (env "outdir").getD outdir ++ ("/_ph0/".toList ++ (name ++ ".phsave".toList)) ∧ '/' ∉ name ∧
      (name ++ ".phsave".toList).head? ≠ some '.' := by
  have : ∃ p, glob = [p] := by
    unfold ph2epw at h
    dsimp only at h
    by_cases hu : isFile fs ((if ".xml".toList <:+ (env "fildyn").getD fildyn then ((env "fildyn").getD fildyn).take (((env "fildyn").getD fildyn).length - 4)
        else (env "fildyn").getD fildyn) ++ '1' :: if isFile fs ((if ".xml".toList <:+ (env "fildyn").getD fildyn then
        ((env "fildyn").getD fildyn).take (((env "fildyn").getD fildyn).length - 4) else (env "fildyn").getD fildyn) ++ "1.xml".toList) = true then ".xml".toList else []) = false ∨
        isDir fs ((env "outdir").getD outdir) = false
    · rw [if_pos hu] at h
      simp at h
    · rw [if_neg hu] at h
      match glob, h with
      | [p], _ => exact ⟨p, rfl⟩
      | [], h => simp at h
      | _ :: _ :: _, h => simp at h
  obtain ⟨p, rfl⟩ := this
  refine ⟨p, (hg.2 p).1 (by simp), fun q hq => ?_⟩
  have := (hg.2 q).2 hq
  simpa using this

/-! ### Examples -/

/-- Two points, of which the second one lacks the potential. -/
def exampleFs : Fs := fun p =>
  if p = "dyn1".toList then some (.file "a".toList)
  else if p = "dyn2".toList then some (.file "b".toList)
  else if p = "work".toList then some .dir
  else if p = "work/_ph0/x.phsave".toList then some .dir
  else if p = "work/_ph0/x.phsave/patterns.1.xml".toList then some (.file "c".toList)
  else if p = "work/_ph0/x.dvscf1".toList then some (.file "d".toList)
  else none

theorem exampleReady : Ready exampleFs "dyn".toList [] "work".toList "save".toList "x".toList 2 where
  noxml := by decide
  hext := by decide
  pos := by decide
  dyn := by
    intro n h1 h2
    interval_cases n <;> decide
  gap := by decide
  houtdir := by decide
  phsave := by decide
  fresh := by decide
  parents := by
    intro p hp
    have : p.head? = some 's' ∨ p = [] := by
      cases p with
      | nil => exact Or.inr rfl
      | cons c p =>
        left
        obtain ⟨t, ht⟩ := hp
        have := congrArg List.head? ht
        simpa using this
    unfold isFile exampleFs
    rcases this with h | h
    · rw [if_neg (by rintro rfl; simp at h), if_neg (by rintro rfl; simp at h), if_neg (by rintro rfl; simp at h), if_neg (by rintro rfl; simp at h),
        if_neg (by rintro rfl; simp at h), if_neg (by rintro rfl; simp at h)]
    · rw [h]
      decide
  nodir := by
    intro s
    unfold isDir exampleFs
    simp [target]
  dynOut := by
    intro s
    simp [target]
  potOut := by
    intro s
    simp [target]

example := C147_copied exampleFs _ _ _ _ _ 2 3 exampleReady (by decide)

/-- The same after a run that was interrupted. -/
def exampleFs' : Fs := Function.update exampleFs "save/x.phsave".toList (some .dir)

example := C147_exists exampleFs' "dyn".toList [] "work".toList "save".toList "x".toList 9 (by decide) (by decide) (by decide) (by decide) (by decide) (by decide)

example := C147_env exampleFs "dyn".toList "work".toList "save".toList [] 9 fun s => if s = "outdir" then some "tmp".toList else none

example : Matches exampleFs "work".toList ["work/_ph0/x.phsave".toList] := by
  refine ⟨by simp, fun p => ?_⟩
  constructor
  · intro h
    simp only [List.mem_singleton] at h
    subst h
    exact ⟨by decide, "x".toList, by decide, by decide, by decide⟩
  · rintro ⟨h, name, rfl, h2, h3⟩
    have h1 : exampleFs ("work".toList ++ ("/_ph0/".toList ++ (name ++ ".phsave".toList))) ≠ none := Option.isSome_iff_ne_none.1 h
    by_contra hn
    apply h1
    unfold exampleFs
    rw [if_neg (by simp), if_neg (by simp), if_neg (by simp), if_neg (by simpa using hn), if_neg, if_neg]
    · intro he
      have := congrArg List.reverse he
      simp at this
    · intro he
      have := congrArg List.reverse he
      simp at this

end Verif.Ph2epw
