import Mathlib.Tactic.Linarith
import Mathlib.Tactic.NormNum
import Verif.Occ.Model

/-!
# Saving and loading drivers: `elphmod/md.py` 825-880; shared attributes of occupation functions (C135)

Only the attributes relevant here are distinguished: all others are the parameter type `D` (driver) and `E` (model `elph`). `pickle` is
external: it reproduces data, refers to occupation functions by name, and cannot process communicators.
-/

namespace Verif.MD

open Verif.Occ

/-- Communicators. -/
inductive Comm where
  | world
  | self
  | shared (color : Nat)
  deriving DecidableEq

/-- Model for the coupling, `self.elph`; `none` means that the attribute does not exist. -/
structure ElphObject (E : Type) where
  data : E
  node : Option Comm
  images : Option Comm

/-- Driver; `photo` means that `self.f` is `elphmod.occupations.two_fermi_dirac`. -/
structure DriverObject (D E : Type) where
  data : D
  interactive : Bool
  sparse : Bool
  photo : Bool
  node : Option Comm
  images : Option Comm
  elph : ElphObject E

/-- File (content pickled) and attribute `two_fermi_dirac.d` of the module `elphmod.occupations`. -/
structure World (D E : Type) where
  file : Option (DriverObject D E)
  d : ℝ

inductive Outcome where
  | done
  | attributeError
  | pickleError
  deriving DecidableEq

variable {D E : Type}

/-- An object without communicators can be pickled. -/
def picklable (s : DriverObject D E) : Bool := s.node.isNone && s.images.isNone && s.elph.node.isNone && s.elph.images.isNone

/-- `elphmod/md.py` 825-854 (`save`). `writable` tells if the file can be opened and written. Statements after an exception are skipped.
The content of the file after a failure is not modelled. -/
def save (writable : Bool) (w : World D E) (s : DriverObject D E) : Outcome × World D E × DriverObject D E :=
  let interactive := s.interactive
  let s := { s with interactive := false }
  match s.node, s.images with
  | some node, some images =>
    let s := { s with node := none, images := none }
    if s.sparse then
      if writable && picklable s then
        (.done, { w with file := some s }, { s with interactive := interactive, node := some node, images := some images })
      else (.pickleError, w, s)
    else
      match s.elph.node, s.elph.images with
      | some elphNode, some elphImages =>
        let s := { s with elph := { s.elph with node := none, images := none } }
        if writable && picklable s then
          let t := { s with elph := { s.elph with node := some elphNode, images := some elphImages } }
          (.done, { w with file := some s }, { t with interactive := interactive, node := some node, images := some images })
        else (.pickleError, w, s)
      | _, _ => (.attributeError, w, s)
  | _, _ => (.attributeError, w, s)

/-- `elphmod/md.py` 857-880 (`load`) after `shm_split` without shared memory, which yields `MPI.COMM_SELF` and the given communicator. -/
def load (w : World D E) : Option (DriverObject D E) :=
  w.file.map fun s =>
    let s := { s with node := some Comm.self, images := some Comm.world }
    if s.sparse then s else { s with elph := { s.elph with node := s.node, images := s.images } }

/-- `elphmod/md.py` 135-141, `elphmod/elph.py` 257 and 516: attributes of a driver for a dense model. -/
def Dense (s : DriverObject D E) : Prop :=
  s.sparse = false ∧ s.node.isSome ∧ s.images.isSome ∧ s.elph.node.isSome ∧ s.elph.images.isSome

/-- `elphmod/md.py` 123-131, `elphmod/elph.py` 430-504: attributes of a driver for a sparse supercell model, neither with communicators. -/
def FromSparse (s : DriverObject D E) : Prop :=
  s.sparse = true ∧ s.node = none ∧ s.images = none ∧ s.elph.node = none ∧ s.elph.images = none

/-- `elphmod/md.py` 162-172: attributes of a driver initialized with the option `supercell`: the communicators of the driver for the primitive
cell are still there. -/
def FromOption (s : DriverObject D E) : Prop :=
  s.sparse = true ∧ s.node.isSome ∧ s.images.isSome ∧ s.elph.node = none ∧ s.elph.images = none

/-- Occupation of a state with reduced energy `x`. -/
noncomputable def occupation (f : ℝ → ℝ) (w : World D E) (s : DriverObject D E) (x : ℝ) : ℝ :=
  if s.photo then twoFermiDirac w.d x else f x

/-- `elphmod/md.py` 202-217 (`find_Fermi_level`, photoexcitation): the distance of chemical potentials is stored in the attribute of the
function. -/
noncomputable def storeDistance (muv muc kT : ℝ) (w : World D E) : World D E := { w with d := (muc - muv) / (2 * kT) }

/-! ### Round trip -/

/-- **C135**: saving leaves drivers for dense models and those created with the option `supercell` unchanged, and loading yields the same driver
without interactive plots and shared memory. -/
theorem C135_partial (w : World D E) (s : DriverObject D E) (h : Dense s ∨ FromOption s) :
    ∃ w', save true w s = (.done, w', s) ∧ w'.d = w.d ∧ ∃ t, load w' = some t ∧ t.data = s.data ∧ t.elph.data = s.elph.data ∧
      t.sparse = s.sparse ∧ t.photo = s.photo ∧ t.interactive = false ∧ t.node = some Comm.self ∧ t.images = some Comm.world ∧
      (Dense s → Dense t) ∧ (FromOption s → FromOption t) := by
  obtain ⟨data, interactive, sparse, photo, node, images, ⟨edata, enode, eimages⟩⟩ := s
  rcases h with ⟨h1, h2, h3, h4, h5⟩ | ⟨h1, h2, h3, h4, h5⟩
  · simp only at h1 h2 h3 h4 h5
    obtain ⟨n, rfl⟩ := Option.isSome_iff_exists.1 h2
    obtain ⟨i, rfl⟩ := Option.isSome_iff_exists.1 h3
    obtain ⟨en, rfl⟩ := Option.isSome_iff_exists.1 h4
    obtain ⟨ei, rfl⟩ := Option.isSome_iff_exists.1 h5
    subst h1
    refine ⟨_, rfl, rfl, _, rfl, rfl, rfl, rfl, rfl, rfl, rfl, rfl, fun _ => ⟨rfl, rfl, rfl, rfl, rfl⟩, fun h => ?_⟩
    exact absurd h.1 (by simp)
  · simp only at h1 h2 h3 h4 h5
    obtain ⟨n, rfl⟩ := Option.isSome_iff_exists.1 h2
    obtain ⟨i, rfl⟩ := Option.isSome_iff_exists.1 h3
    subst h1 h4 h5
    refine ⟨_, rfl, rfl, _, rfl, rfl, rfl, rfl, rfl, rfl, rfl, rfl, fun h => ?_, fun _ => ⟨rfl, rfl, rfl, rfl, rfl⟩⟩
    exact absurd h.1 (by simp)

/-- Hypotheses of `C135_partial`. -/
example : Dense (⟨1, true, false, false, some (.shared 0), some (.shared 1), ⟨2, some (.shared 0), some (.shared 1)⟩⟩ : DriverObject Nat Nat) ∧
    FromOption (⟨1, true, true, false, some (.shared 0), some (.shared 1), ⟨2, none, none⟩⟩ : DriverObject Nat Nat) :=
  ⟨⟨rfl, rfl, rfl, rfl, rfl⟩, ⟨rfl, rfl, rfl, rfl, rfl⟩⟩

/-! ### Violations -/

/-- **C135** (violation): no driver for a sparse supercell model (the way recommended) can be saved. Moreover, interactive plots are off
afterwards. -/
theorem C135_sparse_violated (writable : Bool) (w : World D E) (s : DriverObject D E) (h : FromSparse s) :
    (save writable w s).1 = .attributeError ∧ (save writable w s).2.1 = w ∧ (save writable w s).2.2.interactive = false := by
  obtain ⟨data, interactive, sparse, photo, node, images, ⟨edata, enode, eimages⟩⟩ := s
  obtain ⟨h1, h2, h3, h4, h5⟩ := h
  simp only at h1 h2 h3 h4 h5
  subst h1 h2 h3 h4 h5
  exact ⟨rfl, rfl, rfl⟩

/-- Such a driver. -/
example : FromSparse (⟨1, true, true, false, none, none, ⟨2, none, none⟩⟩ : DriverObject Nat Nat) := ⟨rfl, rfl, rfl, rfl, rfl⟩

/-- **C135** (violation): after a failed attempt to save it (e.g., for lack of disk space), a driver for a dense model has lost its communicators
and cannot be saved again. -/
theorem C135_failure_violated (w : World D E) (s : DriverObject D E) (h : Dense s) :
    (save false w s).1 = .pickleError ∧ (save false w s).2.2.node = none ∧ (save false w s).2.2.elph.node = none ∧
      (save true w (save false w s).2.2).1 = .attributeError := by
  obtain ⟨data, interactive, sparse, photo, node, images, ⟨edata, enode, eimages⟩⟩ := s
  obtain ⟨h1, h2, h3, h4, h5⟩ := h
  simp only at h1 h2 h3 h4 h5
  obtain ⟨n, rfl⟩ := Option.isSome_iff_exists.1 h2
  obtain ⟨i, rfl⟩ := Option.isSome_iff_exists.1 h3
  obtain ⟨en, rfl⟩ := Option.isSome_iff_exists.1 h4
  obtain ⟨ei, rfl⟩ := Option.isSome_iff_exists.1 h5
  subst h1
  exact ⟨rfl, rfl, rfl, rfl⟩

theorem two_zero (d : ℝ) (h : |d| ≤ 709) : twoFermiDirac d 0 = 1 / (Real.exp (-d) + 1) := by
  obtain ⟨h1, h2⟩ := abs_le.1 h
  have : twoDx d 0 = -d := by simp [twoDx, twoDy]
  rw [twoFermiDirac, this, zero_add, fermiDirac, min_eq_left (by unfold xmax; linarith)]

/-- **C135** (violation): with photoexcitation, occupations after loading are not those at the time of saving if the attribute of the
occupation function has changed in the meantime (new session, where it equals 5, or another driver): it is not saved with the driver. -/
theorem C135_photo_violated (f : ℝ → ℝ) (w : World D E) (s : DriverObject D E) (h : Dense s ∨ FromOption s) (hs : s.photo = true) (d : ℝ)
    (hw : |w.d| ≤ 709) (hd : |d| ≤ 709) (hne : d ≠ w.d) : ∃ t x, load { (save true w s).2.1 with d := d } = some t ∧
      occupation f { (save true w s).2.1 with d := d } t x ≠ occupation f w s x := by
  obtain ⟨w', h1, h2, t, h3, -, -, -, h4, -⟩ := C135_partial w s h
  refine ⟨t, 0, ?_, ?_⟩
  · rw [h1]
    exact h3
  · unfold occupation
    rw [h4, hs, if_pos rfl, if_pos rfl, two_zero _ hd, two_zero _ hw]
    intro h5
    have h6 := Real.exp_pos (-d)
    have h7 := Real.exp_pos (-w.d)
    rw [div_eq_div_iff (by linarith) (by linarith), one_mul, one_mul, add_left_inj, Real.exp_eq_exp] at h5
    exact hne (by linarith)

/-- **C135** (violation): two drivers with photoexcitation are not independent: determining the chemical potentials of one changes the
occupations of the other, unless both distances agree. -/
theorem C135_independent_violated (f : ℝ → ℝ) (w : World D E) (s : DriverObject D E) (hs : s.photo = true) (muv muc kT muv' muc' kT' : ℝ)
    (h : |(muc - muv) / (2 * kT)| ≤ 709) (h' : |(muc' - muv') / (2 * kT')| ≤ 709) (hne : (muc - muv) / (2 * kT) ≠ (muc' - muv') / (2 * kT')) :
    ∃ x, occupation f (storeDistance muv' muc' kT' (storeDistance muv muc kT w)) s x ≠ occupation f (storeDistance muv muc kT w) s x := by
  refine ⟨0, ?_⟩
  unfold occupation storeDistance
  rw [hs, if_pos rfl, if_pos rfl, two_zero _ h', two_zero _ h]
  intro h5
  have h6 := Real.exp_pos (-((muc' - muv') / (2 * kT')))
  have h7 := Real.exp_pos (-((muc - muv) / (2 * kT)))
  rw [div_eq_div_iff (by linarith) (by linarith), one_mul, one_mul, add_left_inj, Real.exp_eq_exp] at h5
  exact hne (by linarith)

/-- Hypotheses of the last two theorems: the initial value is 5; chemical potentials with different distances. -/
example := C135_photo_violated (D := Nat) (E := Nat) (fun _ => 0) ⟨none, 2⟩ ⟨1, true, true, true, some .self, some .world, ⟨2, none, none⟩⟩
  (Or.inr ⟨rfl, rfl, rfl, rfl, rfl⟩) rfl 5 (by norm_num) (by norm_num) (by norm_num)

example := C135_independent_violated (D := Nat) (E := Nat) (fun _ => 0) ⟨none, 2⟩ ⟨1, true, true, true, some .self, some .world, ⟨2, none, none⟩⟩
  rfl 0 1 1 0 1 (1 / 2) (by norm_num) (by norm_num) (by norm_num)

end Verif.MD
