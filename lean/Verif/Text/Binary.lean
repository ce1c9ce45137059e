import Mathlib.Data.Complex.Basic
import Mathlib.Data.List.Basic
import Mathlib.Algebra.Order.Group.Int
import Mathlib.Tactic.Linarith
import Mathlib.Tactic.NormNum
import Mathlib.Data.Nat.Digits.Defs
import Mathlib.Data.Nat.Digits.Lemmas

/-!
# Binary files with charge density and wave functions: `read_rhoG_density` and `read_wfc` of `elphmod/el.py`

A file is a list of bytes. `np.fromfile` with `int32` reads little-endian two's complement numbers. The representation of
floating-point numbers is a parameter (eight bytes each), so that no property of IEEE 754 is needed. The calculation of
reciprocal vectors from the cell is treated in `ElEl/Hartree.lean`.
-/

namespace Verif.Binary

/-- A byte. -/
abbrev Byte := Fin 256

/-- Representation of floating-point numbers by eight bytes. -/
structure Codec (F : Type) where
  enc : F → List Byte
  dec : List Byte → F
  size : ∀ x, (enc x).length = 8
  inv : ∀ x, dec (enc x) = x

/-- Value of up to four bytes, little-endian, as an unsigned number. -/
def unsigned : List Byte → Nat
  | [] => 0
  | b :: bs => b + 256 * unsigned bs

/-- `np.int32` from four bytes. -/
def int32 (bs : List Byte) : ℤ := if unsigned bs < 2 ^ 31 then (unsigned bs : ℤ) else (unsigned bs : ℤ) - 2 ^ 32

/-- `np.fromfile(f, dtype, count)` with items of `size` bytes: as many complete items as there are (at most `count`), and the rest
of the file. -/
def fromFile {α : Type} (size : Nat) (item : List Byte → α) : Nat → List Byte → List α × List Byte
  | 0, f => ([], f)
  | n + 1, f => if f.length < size then ([], []) else
      let r := fromFile size item n (f.drop size)
      (item (f.take size) :: r.1, r.2)

/-- Numbers of type `np.int32`. -/
def ints : Nat → List Byte → List ℤ × List Byte := fromFile 4 int32

/-- `np.fromfile(f, dtype=np.int32, count=1)[0]`; an exception at the end of the file. -/
def int1 (f : List Byte) : Option (ℤ × List Byte) :=
  match ints 1 f with
  | (z :: _, f) => some (z, f)
  | ([], _) => none

/-- Numbers of type `np.float64`. -/
def floats {F : Type} (c : Codec F) : Nat → List Byte → List F × List Byte := fromFile 8 c.dec

/-- `np.fromfile(f, dtype=np.float64, count=1)[0]`. -/
def float1 {F : Type} (c : Codec F) (f : List Byte) : Option (F × List Byte) :=
  match floats c 1 f with
  | (z :: _, f) => some (z, f)
  | ([], _) => none

/-- Numbers of type `np.complex128`: real and imaginary part. -/
def complexes {F : Type} (c : Codec F) : Nat → List Byte → List (F × F) × List Byte :=
  fromFile 16 fun bs => (c.dec (bs.take 8), c.dec (bs.drop 8))

/-- `reshape((n, 3))` of a flat array; an exception if the number of elements is wrong. -/
def triples {α : Type} : Nat → List α → Option (List (α × α × α))
  | 0, [] => some []
  | n + 1, x :: y :: z :: l => (triples n l).map ((x, y, z) :: ·)
  | _, _ => none

/-- What `read_rhoG_density` obtains from the file. -/
structure RhoG (F : Type) where
  gammaOnly : Bool
  ngm : ℤ
  ispin : ℤ
  b : List F
  mill : List (ℤ × ℤ × ℤ)
  rho : List (F × F)

/-- `elphmod/el.py` 1869-1893 (`read_rhoG_density`). A negative number of vectors (`count=-1` reads everything) is taken as an
error. -/
def readRhoG {F : Type} (c : Codec F) (f : List Byte) : Option (RhoG F) := do
  let f := f.drop 4
  let (gammaOnly, f) ← int1 f
  let (ngm, f) ← int1 f
  let (ispin, f) ← int1 f
  let f := f.drop 8
  let (b1, f) := floats c 3 f
  let (b2, f) := floats c 3 f
  let (b3, f) := floats c 3 f
  let f := f.drop 8
  if ngm < 0 then none else
  let (l, f) := ints (3 * ngm.toNat) f
  let mill ← triples ngm.toNat l
  let f := f.drop 8
  let (rho, _) := complexes c ngm.toNat f
  some { gammaOnly := gammaOnly ≠ 0, ngm := ngm, ispin := ispin, b := b1 ++ b2 ++ b3, mill := mill, rho := rho }

/-- What `read_wfc` obtains from the file. -/
structure Wfc (F : Type) where
  ik : ℤ
  xk : List F
  ispin : ℤ
  gammaOnly : Bool
  scalef : F
  ngw : ℤ
  igwx : ℤ
  npol : ℤ
  nbnd : ℤ
  b : List F
  mill : List (ℤ × ℤ × ℤ)
  evc : List (List (F × F))

/-- `elphmod/el.py` 1975-1980: one record per band; an exception if a record is incomplete (shapes disagree). -/
def readBands {F : Type} (c : Codec F) (n : Nat) : Nat → List Byte → Option (List (List (F × F)))
  | 0, _ => some []
  | nb + 1, f =>
    let (l, f) := complexes c n f
    if l.length = n then (readBands c n nb (f.drop 8)).map (l :: ·) else none

/-- `elphmod/el.py` 1945-1980 (`read_wfc`). Negative numbers are taken as errors. -/
def readWfc {F : Type} (c : Codec F) (f : List Byte) : Option (Wfc F) := do
  let f := f.drop 4
  let (ik, f) ← int1 f
  let (xk, f) := floats c 3 f
  let (ispin, f) ← int1 f
  let (gammaOnly, f) ← int1 f
  let (scalef, f) ← float1 c f
  let f := f.drop 8
  let (ngw, f) ← int1 f
  let (igwx, f) ← int1 f
  let (npol, f) ← int1 f
  let (nbnd, f) ← int1 f
  let f := f.drop 8
  let (b1, f) := floats c 3 f
  let (b2, f) := floats c 3 f
  let (b3, f) := floats c 3 f
  let f := f.drop 8
  if igwx < 0 ∨ npol < 0 ∨ nbnd < 0 then none else
  let (l, f) := ints (3 * igwx.toNat) f
  let mill ← triples igwx.toNat l
  let f := f.drop 8
  let evc ← readBands c (npol.toNat * igwx.toNat) nbnd.toNat f
  some { ik := ik, xk := xk, ispin := ispin, gammaOnly := gammaOnly ≠ 0, scalef := scalef, ngw := ngw, igwx := igwx, npol := npol, nbnd := nbnd, b := b1 ++ b2 ++ b3, mill := mill, evc := evc }

/-! ### Specification: unformatted sequential files -/

/-- Four bytes, little-endian. -/
def bytes4 (n : Nat) : List Byte :=
  [Fin.ofNat 256 n, Fin.ofNat 256 (n / 256), Fin.ofNat 256 (n / 256 ^ 2), Fin.ofNat 256 (n / 256 ^ 3)]

/-- A 32-bit integer in memory (two's complement). -/
def encInt (z : ℤ) : List Byte := bytes4 (z % 2 ^ 32).toNat

/-- Representable integers. -/
def Int32 (z : ℤ) : Prop := -2 ^ 31 ≤ z ∧ z < 2 ^ 31

/-- A record of an unformatted sequential file: its length in bytes before and after the data. -/
def record (data : List Byte) : List Byte := bytes4 data.length ++ data ++ bytes4 data.length

def encInts (l : List ℤ) : List Byte := l.flatMap encInt

def encFloats {F : Type} (c : Codec F) (l : List F) : List Byte := l.flatMap c.enc

def encComplex {F : Type} (c : Codec F) (l : List (F × F)) : List Byte := l.flatMap fun z => c.enc z.1 ++ c.enc z.2

def flat3 (l : List (ℤ × ℤ × ℤ)) : List ℤ := l.flatMap fun m => [m.1, m.2.1, m.2.2]

/-- The file with the charge density: header, reciprocal lattice vectors, Miller indices, one record per spin component.
`gamma` is any nonzero number for `.true.` -/
def writeRhoG {F : Type} (c : Codec F) (gamma : ℤ) (r : RhoG F) (more : List Byte) : List Byte :=
  record (encInts [gamma, r.ngm, r.ispin]) ++ record (encFloats c r.b) ++ record (encInts (flat3 r.mill)) ++
    record (encComplex c r.rho) ++ more

/-- The file with wave functions. -/
def writeWfc {F : Type} (c : Codec F) (gamma : ℤ) (w : Wfc F) : List Byte :=
  record (encInts [w.ik] ++ encFloats c w.xk ++ encInts [w.ispin, gamma] ++ encFloats c [w.scalef]) ++
    record (encInts [w.ngw, w.igwx, w.npol, w.nbnd]) ++ record (encFloats c w.b) ++ record (encInts (flat3 w.mill)) ++
    w.evc.flatMap fun e => record (encComplex c e)

/-! ### Lemmas -/

theorem length_bytes4 (n : Nat) : (bytes4 n).length = 4 := rfl

theorem unsigned_bytes4 (n : Nat) (h : n < 2 ^ 32) : unsigned (bytes4 n) = n := by
  simp only [unsigned, bytes4, Fin.val_ofNat]
  omega

theorem int32_enc (z : ℤ) (h : Int32 z) : int32 (encInt z) = z := by
  obtain ⟨h1, h2⟩ := h
  have h3 : unsigned (encInt z) = (z % 2 ^ 32).toNat := unsigned_bytes4 _ (by omega)
  unfold int32
  rw [h3]
  split <;> omega

theorem length_encInt (z : ℤ) : (encInt z).length = 4 := rfl

theorem fromFile_enc {α β : Type} (size : Nat) (item : List Byte → α) (enc : β → List Byte) (val : β → α) (l : List β)
    (h1 : ∀ x ∈ l, (enc x).length = size) (h2 : ∀ x ∈ l, item (enc x) = val x) (f : List Byte) :
    fromFile size item l.length (l.flatMap enc ++ f) = (l.map val, f) := by
  induction l with
  | nil => rfl
  | cons a l ih =>
    have ha := h1 a List.mem_cons_self
    rw [List.length_cons, List.flatMap_cons, List.append_assoc]
    unfold fromFile
    rw [if_neg (by rw [List.length_append, ha]; omega), List.drop_left' ha, List.take_left' ha,
      ih (fun x hx => h1 x (List.mem_cons_of_mem _ hx)) fun x hx => h2 x (List.mem_cons_of_mem _ hx), h2 a List.mem_cons_self]
    rfl

theorem ints_enc (l : List ℤ) (h : ∀ z ∈ l, Int32 z) (f : List Byte) : ints l.length (encInts l ++ f) = (l, f) := by
  have := fromFile_enc 4 int32 encInt id l (fun x _ => length_encInt x) (fun x hx => int32_enc x (h x hx)) f
  rw [List.map_id] at this
  exact this

theorem int1_enc (z : ℤ) (h : Int32 z) (f : List Byte) : int1 (encInt z ++ f) = some (z, f) := by
  have := ints_enc [z] (by simpa using h) f
  simp only [encInts, List.flatMap_cons, List.flatMap_nil, List.append_nil, List.length_cons, List.length_nil, zero_add] at this
  unfold int1
  rw [this]

theorem floats_enc {F : Type} (c : Codec F) (l : List F) (f : List Byte) : floats c l.length (encFloats c l ++ f) = (l, f) := by
  have := fromFile_enc 8 c.dec c.enc id l (fun x _ => c.size x) (fun x _ => c.inv x) f
  rw [List.map_id] at this
  exact this

theorem floats_enc' {F : Type} (c : Codec F) (n : Nat) (l : List F) (h : l.length = n) (f : List Byte) :
    floats c n (encFloats c l ++ f) = (l, f) := by
  rw [← h, floats_enc]

theorem float1_enc {F : Type} (c : Codec F) (x : F) (f : List Byte) : float1 c (c.enc x ++ f) = some (x, f) := by
  have := floats_enc c [x] f
  simp only [encFloats, List.flatMap_cons, List.flatMap_nil, List.append_nil, List.length_cons, List.length_nil, zero_add] at this
  unfold float1
  rw [this]

theorem complexes_enc {F : Type} (c : Codec F) (l : List (F × F)) (f : List Byte) :
    complexes c l.length (encComplex c l ++ f) = (l, f) := by
  have := fromFile_enc 16 (fun bs => (c.dec (bs.take 8), c.dec (bs.drop 8))) (fun z : F × F => c.enc z.1 ++ c.enc z.2) id l
    (fun x _ => by rw [List.length_append, c.size, c.size])
    (fun x _ => by rw [List.take_left' (c.size _), List.drop_left' (c.size _), c.inv, c.inv]; rfl) f
  rw [List.map_id] at this
  exact this

theorem triples_flat3 (l : List (ℤ × ℤ × ℤ)) : triples l.length (flat3 l) = some l := by
  induction l with
  | nil => rfl
  | cons a l ih =>
    show (triples l.length (flat3 l)).map _ = _
    rw [ih]
    rfl

theorem length_flat3 (l : List (ℤ × ℤ × ℤ)) : (flat3 l).length = 3 * l.length := by
  induction l with
  | nil => rfl
  | cons a l ih =>
    show (flat3 l).length + 3 = _
    rw [ih, List.length_cons]
    ring

theorem drop_record (data f : List Byte) : (record data ++ f).drop 4 = data ++ (bytes4 data.length ++ f) := by
  unfold record
  rw [List.append_assoc, List.append_assoc, List.drop_left' (length_bytes4 _)]

theorem drop_next (n : Nat) (data f : List Byte) : (bytes4 n ++ (record data ++ f)).drop 8 = data ++ (bytes4 data.length ++ f) := by
  rw [show 8 = 4 + 4 from rfl, ← List.drop_drop, List.drop_left' (length_bytes4 _), drop_record]

/-- Well-formed contents of the file with the charge density. -/
structure RhoG.Valid {F : Type} (r : RhoG F) : Prop where
  ispin : Int32 r.ispin
  size : r.ngm = r.mill.length
  ngm : Int32 r.ngm
  b : r.b.length = 9
  mill : ∀ z ∈ flat3 r.mill, Int32 z
  rho : r.rho.length = r.mill.length

theorem split9 {F : Type} (l : List F) (h : l.length = 9) : ∃ l1 l2 l3, l1.length = 3 ∧ l2.length = 3 ∧ l3.length = 3 ∧ l = l1 ++ l2 ++ l3 :=
  ⟨l.take 3, (l.drop 3).take 3, l.drop 6, by simp [h], by simp [h], by simp [h], by
    rw [List.append_assoc, show l.drop 6 = (l.drop 3).drop 3 by rw [List.drop_drop], List.take_append_drop, List.take_append_drop]⟩

/-- C119: the file with the charge density is read as it was written, for any representation of floating-point numbers. -/
theorem C119_density {F : Type} (c : Codec F) (gamma : ℤ) (hg : Int32 gamma) (r : RhoG F) (hr : r.Valid) (h : r.gammaOnly = decide (gamma ≠ 0))
    (more : List Byte) : readRhoG c (writeRhoG c gamma r more) = some r := by
  obtain ⟨l1, l2, l3, hl1, hl2, hl3, hb⟩ := split9 r.b hr.b
  have e1 : encInts [gamma, r.ngm, r.ispin] = encInt gamma ++ (encInt r.ngm ++ (encInt r.ispin ++ [])) := rfl
  have e2 : encFloats c r.b = encFloats c l1 ++ (encFloats c l2 ++ encFloats c l3) := by
    rw [hb]
    simp [encFloats]
  have hn : r.ngm.toNat = r.mill.length := by rw [hr.size]; rfl
  have e3 := fun f => ints_enc (flat3 r.mill) hr.mill f
  rw [length_flat3] at e3
  have e4 := fun f => complexes_enc c r.rho f
  rw [hr.rho] at e4
  have hge : ¬r.ngm < 0 := by rw [hr.size]; omega
  unfold readRhoG writeRhoG
  simp only [List.append_assoc, drop_record]
  simp only [e1, List.append_assoc, List.nil_append]
  simp only [int1_enc _ hg, int1_enc _ hr.ngm, int1_enc _ hr.ispin, Option.bind_eq_bind, Option.bind_some, drop_next]
  simp only [e2, List.append_assoc, floats_enc' c 3 l1 hl1, floats_enc' c 3 l2 hl2, floats_enc' c 3 l3 hl3, drop_next, hge, if_false, hn, e3,
    triples_flat3, Option.bind_some, e4]
  rw [List.append_assoc] at hb
  rw [← hb]
  cases r
  simp only at h
  rw [h]

/-- Well-formed contents of the file with wave functions. -/
structure Wfc.Valid {F : Type} (w : Wfc F) : Prop where
  ik : Int32 w.ik
  xk : w.xk.length = 3
  ispin : Int32 w.ispin
  ngw : Int32 w.ngw
  igwx : Int32 w.igwx
  npol : Int32 w.npol
  nbnd : Int32 w.nbnd
  pol : 0 ≤ w.npol
  size : w.igwx = w.mill.length
  b : w.b.length = 9
  mill : ∀ z ∈ flat3 w.mill, Int32 z
  bands : w.nbnd = w.evc.length
  evc : ∀ e ∈ w.evc, e.length = w.npol.toNat * w.mill.length

theorem readBands_enc {F : Type} (c : Codec F) (n k : Nat) (l : List (List (F × F))) (h : ∀ e ∈ l, e.length = n) :
    readBands c n l.length ((bytes4 k ++ l.flatMap fun e => record (encComplex c e)).drop 8) = some l := by
  induction l generalizing k with
  | nil => rfl
  | cons a l ih =>
    have ha := h a List.mem_cons_self
    rw [List.flatMap_cons, drop_next, List.length_cons]
    unfold readBands
    have := fun f => complexes_enc c a f
    rw [ha] at this
    simp only [this, ha, if_true, ih _ fun e he => h e (List.mem_cons_of_mem _ he)]
    rfl

/-- C119: the file with wave functions is read as it was written, for any numbers of bands, spinor components and plane waves. -/
theorem C119_wave {F : Type} (c : Codec F) (gamma : ℤ) (hg : Int32 gamma) (w : Wfc F) (hw : w.Valid) (h : w.gammaOnly = decide (gamma ≠ 0)) :
    readWfc c (writeWfc c gamma w) = some w := by
  obtain ⟨l1, l2, l3, hl1, hl2, hl3, hb⟩ := split9 w.b hw.b
  have e1 : encInts [w.ik] ++ encFloats c w.xk ++ encInts [w.ispin, gamma] ++ encFloats c [w.scalef] =
      encInt w.ik ++ (encFloats c w.xk ++ (encInt w.ispin ++ (encInt gamma ++ c.enc w.scalef))) := by
    simp [encInts, encFloats]
  have e0 : encInts [w.ngw, w.igwx, w.npol, w.nbnd] = encInt w.ngw ++ (encInt w.igwx ++ (encInt w.npol ++ (encInt w.nbnd ++ []))) := rfl
  have e2 : encFloats c w.b = encFloats c l1 ++ (encFloats c l2 ++ encFloats c l3) := by
    rw [hb]
    simp [encFloats]
  have hn : w.igwx.toNat = w.mill.length := by rw [hw.size]; rfl
  have hnb : w.nbnd.toNat = w.evc.length := by rw [hw.bands]; rfl
  have e3 := fun f => ints_enc (flat3 w.mill) hw.mill f
  rw [length_flat3] at e3
  have hge : ¬(w.igwx < 0 ∨ w.npol < 0 ∨ w.nbnd < 0) := by
    have := hw.pol
    have := hw.size
    have := hw.bands
    omega
  unfold readWfc writeWfc
  rw [e1]
  simp only [List.append_assoc, drop_record]
  simp only [int1_enc _ hg, int1_enc _ hw.ik, int1_enc _ hw.ispin, floats_enc' c 3 _ hw.xk, float1_enc, Option.bind_eq_bind, Option.bind_some,
    drop_next, e0, List.append_assoc, List.nil_append, int1_enc _ hw.ngw, int1_enc _ hw.igwx, int1_enc _ hw.npol, int1_enc _ hw.nbnd]
  simp only [e2, List.append_assoc, floats_enc' c 3 l1 hl1, floats_enc' c 3 l2 hl2, floats_enc' c 3 l3 hl3, drop_next, hge, if_false, hn, e3,
    triples_flat3, Option.bind_some, hnb, readBands_enc c _ _ w.evc hw.evc]
  rw [List.append_assoc] at hb
  rw [← hb]
  cases w
  simp only at h
  rw [h]

/-- C119 (truncated files): if the file ends within the charge density, there is no exception. A file without any density is read
as if this were intended, although the number of vectors is known. -/
theorem C119_truncated_violated {F : Type} (c : Codec F) (x : F) : ∃ f r, readRhoG c f = some r ∧ r.ngm = 1 ∧ r.mill.length = 1 ∧ r.rho = [] := by
  let r : RhoG F := { gammaOnly := false, ngm := 1, ispin := 1, b := List.replicate 9 x, mill := [(0, 0, 0)], rho := [] }
  have hf : readRhoG c (record (encInts [0, r.ngm, r.ispin]) ++ record (encFloats c r.b) ++ record (encInts (flat3 r.mill))) = some r := by
    have e1 : encInts [0, r.ngm, r.ispin] = encInt 0 ++ (encInt 1 ++ (encInt 1 ++ [])) := rfl
    have e2 : encFloats c r.b = encFloats c [x, x, x] ++ (encFloats c [x, x, x] ++ encFloats c [x, x, x]) := by
      simp [encFloats, r, List.replicate]
    have i0 : Int32 0 := by constructor <;> norm_num
    have i1 : Int32 1 := by constructor <;> norm_num
    have e3 := fun f => ints_enc [0, 0, 0] (by simp [i0]) f
    have e4 : record (encInts (flat3 r.mill)) = record (encInts [0, 0, 0]) ++ [] := by simp [r, flat3]
    have e5 : ∀ f, floats c 3 (encFloats c [x, x, x] ++ f) = ([x, x, x], f) := fun f => floats_enc' c 3 _ rfl f
    unfold readRhoG
    simp only [e4, List.append_assoc, drop_record]
    simp only [e1, List.append_assoc, List.nil_append, int1_enc _ i0, int1_enc _ i1, Option.bind_eq_bind, Option.bind_some, drop_next]
    simp only [e2, List.append_assoc, e5, drop_next, show ¬(1 : ℤ) < 0 by norm_num, if_false, show 3 * (1 : ℤ).toNat = [0, 0, 0].length from rfl, e3]
    rfl
  exact ⟨_, r, hf, rfl, rfl, rfl⟩

/-- Example: a representation of natural numbers below `2 ^ 32` by eight bytes. -/
def small : Codec (Fin (2 ^ 32)) where
  enc x := bytes4 x ++ bytes4 0
  dec l := Fin.ofNat (2 ^ 32) (unsigned (l.take 4))
  size _ := rfl
  inv x := by
    rw [List.take_left' (length_bytes4 _), unsigned_bytes4 _ x.2]
    apply Fin.ext
    simp [Nat.mod_eq_of_lt x.2]

/-- Example: two bands, two plane waves, one of them with a negative index. -/
example : (Wfc.mk 1 [1, 2, 3] (-1) false 1 2 2 1 2 (List.replicate 9 5) [(0, 0, 0), (0, -1, 2)] [[(1, 2), (3, 4)], [(5, 6), (7, 8)]] :
    Wfc (Fin (2 ^ 32))).Valid := by
  constructor <;> simp [Int32, flat3]

example : (RhoG.mk true 2 1 (List.replicate 9 5) [(0, 0, 0), (0, -1, 2)] [(1, 2), (3, 4)] : RhoG (Fin (2 ^ 32))).Valid := by
  constructor <;> simp [Int32, flat3]

end Verif.Binary
