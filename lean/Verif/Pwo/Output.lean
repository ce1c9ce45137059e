import Verif.Pwo.Model
import Mathlib.Tactic.Linarith
import Mathlib.Tactic.NormNum

/-!
# Specification: output of `pw.x`

The output consists of items in any order and number, as in a structural relaxation. The formats are those of Quantum ESPRESSO.
-/

namespace Verif.Pwo

open Verif.Text

/-- Text, number and text. -/
def numLine (a : String) (f : Field) (b : String) : Str := a.toList ++ (fmt [f] ++ (b.toList ++ ['\n']))

/-- Lines with energies of a k point, eight per line (`(2X,8F9.4)`). -/
def rows (e : List ℚ) : List Str :=
  (List.range ((e.length + 7) / 8)).map fun r => "  ".toList ++ (fmt (((e.drop (8 * r)).take 8).map (fFixed 0 9 4)) ++ ['\n'])

/-- Parts of the output. -/
inductive Item
  | electrons (x : ℚ)
  | states (n : Nat)
  | kpoints (n : Nat) (smearing : String)
  | fermi (x : ℚ)
  | levels (x y : ℚ)
  | level (x : ℚ)
  | energy (x : ℚ)
  | bands (e : List ((Str × Str × Str) × List ℚ))
  | other (line : Str)

/-- Lines of the output. -/
def Item.lines : Item → List Str
  | .electrons x => [numLine "     number of electrons       =" (fFixed 1 12 2 x) ""]
  | .states n => [numLine "     number of Kohn-Sham states=" (fInt 1 12 n) ""]
  | .kpoints n s => [numLine "     number of k points=" (fInt 0 6 n) s]
  | .fermi x => [numLine "     the Fermi energy is" (fFixed 1 10 4 x) " ev"]
  | .levels x y => ["     highest occupied, lowest unoccupied level (ev):".toList ++ (fmt [fFixed 1 10 4 x, fFixed 0 10 4 y] ++ ['\n'])]
  | .level x => [numLine "     highest occupied level (ev):" (fFixed 1 10 4 x) ""]
  | .energy x => [numLine "!    total energy              =" (fFixed 0 17 8 x) " Ry"]
  | .bands e => ("     End of self-consistent calculation".toList ++ ['\n']) ::
      e.flatMap fun r => r.1.1 :: r.1.2.1 :: r.1.2.2 :: rows r.2
  | .other l => [l]

/-- Output file. -/
def output (l : List Item) : List Str := l.flatMap Item.lines

/-- Words which announce items. -/
def keywords : List String := ["number of electrons", "number of Kohn-Sham states", "number of k points", "the Fermi energy is",
  "highest occupied, lowest unoccupied level", "highest occupied level", "End of self-consistent calculation"]

/-- The numbers fit into their columns; other lines do not contain keywords (the three lines before the energies of each k point
may contain anything). In `kpoints`, `s` describes the smearing. -/
def Item.Valid : Item → Prop
  | .electrons x => |x| ≤ 10 ^ 8
  | .states n => n < 10 ^ 11
  | .kpoints n s => n < 10 ^ 5 ∧ (s = "" ∨ ∃ t, s = ' '.toString ++ t) ∧ ¬ "electrons".toList <:+: s.toList ∧ ¬ "Kohn".toList <:+: s.toList ∧
      ¬ "energy".toList <:+: s.toList ∧ ¬ "highest".toList <:+: s.toList
  | .fermi x => |x| ≤ 10 ^ 4 - 1
  | .levels x y => |x| ≤ 10 ^ 4 - 1 ∧ -999 ≤ y ∧ y ≤ 9999
  | .level x => |x| ≤ 10 ^ 4 - 1
  | .energy x => |x| ≤ 10 ^ 6 - 1
  | .bands e => ∀ r ∈ e, ∀ x ∈ r.2, -99 ≤ x ∧ x ≤ 999
  | .other l => (∀ k ∈ keywords, ¬ k.toList <:+: l) ∧ ¬ "!".toList <+: l

/-- The energies agree with the numbers of k points `Nk` and states `Ns` which have been written last. -/
def Consistent : Option Nat → Option Nat → List Item → Prop
  | _, _, [] => True
  | Nk, _, .states n :: r => Consistent Nk (some n) r
  | _, Ns, .kpoints n _ :: r => Consistent (some n) Ns r
  | Nk, Ns, .bands e :: r => Nk = some e.length ∧ (∀ x ∈ e, Ns = some x.2.length) ∧ Ns ≠ none ∧ Consistent Nk Ns r
  | Nk, Ns, _ :: r => Consistent Nk Ns r

/-- Last value of a quantity. -/
def last {β : Type} (f : Item → Option β) (l : List Item) : Option β := (l.filterMap f).getLast?

/-- Number of electrons. -/
def Item.electrons? : Item → Option ℚ
  | .electrons x => some x
  | _ => none

/-- Total energy. -/
def Item.energy? : Item → Option ℚ
  | .energy x => some x
  | _ => none

/-- Energies of electrons. -/
def Item.bands? : Item → Option (List (List ℚ))
  | .bands e => some (e.map Prod.snd)
  | _ => none

/-- Fermi level (rounded): given or in the middle of the gap. -/
def Item.fermi? : Item → Option ℚ
  | .fermi x => some (roundTo 4 x)
  | .levels x y => some ((roundTo 4 x + roundTo 4 y) / 2)
  | _ => none

/-- Fermi level or highest occupied level (rounded). -/
def Item.level? : Item → Option ℚ
  | .fermi x => some (roundTo 4 x)
  | .level x => some (roundTo 4 x)
  | _ => none

end Verif.Pwo
