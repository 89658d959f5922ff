import Verif.Model.Cell
import Verif.Spec.KeyReading
/-
Recovered cells: where in the file they are and what makes them deleted.
-/
namespace Notatin.Spec
open Notatin

/-- The size field of the cell at `off`. -/
def sizeAt (buf : Bytes) (off : Nat) : Int := toI32 (u32At (buf.drop off) 0)

/-- The bytes from `off` on start with `input`. -/
def IsAt (buf : Bytes) (off : Nat) (input : Bytes) : Prop := ∃ ext, buf.drop off = input ++ ext

/-- Why a cell counts as deleted: it is a free cell (positive size), or it was found inside the
unused part of another cell. -/
def DeletedAs (buf : Bytes) (off : Nat) (s : CellState) : Prop :=
  (s = .DeletedPrimaryFile ∧ 0 < sizeAt buf off) ∨ s = .DeletedPrimaryFileSlack

/-- The bytes from `a` to `b` are a sequence of cells, starting at the offsets listed; a cell is at
least eight bytes long. -/
inductive Chain (buf : Bytes) : Nat → Nat → List Nat → Prop
  | nil (a : Nat) : Chain buf a a []
  | cons (a b : Nat) (cs : List Nat) : 8 ≤ (sizeAt buf a).natAbs →
      Chain buf (a + (sizeAt buf a).natAbs) b cs → Chain buf a b (a :: cs)

/-- A bin from `a` to `b`: a 32-byte header with its size, then the cells. -/
def BinAt (buf : Bytes) (a b : Nat) (cs : List Nat) : Prop :=
  slice buf a 4 = [0x68, 0x62, 0x69, 0x6E] ∧ a + u32At buf (a + 8) = b ∧ a + 32 < b ∧
  Chain buf (a + 32) b cs

/-- The bins from `a` to `e`, with the offset of each and its cells. -/
inductive Bins (buf : Bytes) : Nat → Nat → List (Nat × List Nat) → Prop
  | nil (a : Nat) : Bins buf a a []
  | cons (a b e : Nat) (cs : List Nat) (bs : List (Nat × List Nat)) : BinAt buf a b cs →
      Bins buf b e bs → Bins buf a e ((a, cs) :: bs)

end Notatin.Spec
