import Verif.Spec.Lists
import Verif.Spec.Cells
import Verif.Spec.Text
/-
Trees of key cells as they are stored in a hive, written from the file format.
-/
namespace Notatin.Spec
open Notatin

/-- The two forms of one ASCII letter. -/
def UpperLower (a b : Char) : Prop := 65 ≤ a.toNat ∧ a.toNat ≤ 90 ∧ b.toNat = a.toNat + 32

/-- The same character, or the same ASCII letter in the other case. -/
def SameLetter (a b : Char) : Prop := a = b ∨ UpperLower a b ∨ UpperLower b a

/-- The same text up to the case of ASCII letters. -/
def SameIgnoringCase (s t : Str) : Prop := Pairwise2 SameLetter s t

/-- The key cell `c` with the name `name` is stored at the absolute offset `off`: one byte per
character when flag bit 5 is set, UTF-16 otherwise. -/
def KeyAt (buf : Bytes) (off : Nat) (c : NkCell) (name : Str) : Prop :=
  c.Fits ∧ At buf off c.encode ∧
  ((c.flags.testBit 5 = true ∧ name = latin1 c.nameBytes) ∨
   (c.flags.testBit 5 = false ∧ c.nameBytes = utf16le name ∧ '\x00' ∉ name))

/-- A tree of key cells: absolute offset, cell, name, sub-keys in the order of the list. -/
inductive Tree where
  | mk (off : Nat) (cell : NkCell) (name : Str) (kids : List Tree)

/-- Offset of the top cell. -/
def Tree.off : Tree → Nat
  | .mk o _ _ _ => o
/-- Top cell. -/
def Tree.cell : Tree → NkCell
  | .mk _ c _ _ => c
/-- Name of the top key. -/
def Tree.name : Tree → Str
  | .mk _ _ n _ => n
/-- Sub-keys. -/
def Tree.kids : Tree → List Tree
  | .mk _ _ _ ks => ks

mutual
/-- The tree is stored in the file: its top cell at its offset, and, if it has sub-keys, a
sub-key list of at most `depth` levels with the offsets of its sub-keys. -/
def TreeAt (buf : Bytes) (hbin depth : Nat) : Tree → Prop
  | .mk off c name kids =>
    KeyAt buf off c name ∧
    ((c.nSubKeys = 0 ∧ kids = []) ∨
     (0 < c.nSubKeys ∧ c.nSubKeys ≤ 1048576 ∧
      ListAt buf hbin depth c.subKeysList (kids.map Tree.off))) ∧
    ForestAt buf hbin depth kids
/-- All trees of the list are stored in the file (at offsets that fit 32 bits). -/
def ForestAt (buf : Bytes) (hbin depth : Nat) : List Tree → Prop
  | [] => True
  | t :: ts => t.off < 4294967296 ∧ TreeAt buf hbin depth t ∧ ForestAt buf hbin depth ts
end

mutual
/-- The keys in pre-order: a key, then its sub-keys' trees one after the other; each with its
offset and its path below `parent`. -/
def Tree.pre (parent : Str) : Tree → List (Nat × Str)
  | .mk off _ name kids =>
    (off, parent ++ '\\' :: name) :: preAll (parent ++ '\\' :: name) kids
/-- Pre-order of a list of trees. -/
def preAll (parent : Str) : List Tree → List (Nat × Str)
  | [] => []
  | t :: ts => t.pre parent ++ preAll parent ts
end

mutual
/-- The keys in post-order: the sub-keys' trees one after the other, then the key. -/
def Tree.post (parent : Str) : Tree → List (Nat × Str)
  | .mk off _ name kids =>
    postAll (parent ++ '\\' :: name) kids ++ [(off, parent ++ '\\' :: name)]
/-- Post-order of a list of trees. -/
def postAll (parent : Str) : List Tree → List (Nat × Str)
  | [] => []
  | t :: ts => t.post parent ++ postAll parent ts
end

mutual
/-- The offsets of all cells of a tree. -/
def Tree.offs : Tree → List Nat
  | .mk off _ _ kids => off :: offsAll kids
/-- The offsets of all cells of a list of trees. -/
def offsAll : List Tree → List Nat
  | [] => []
  | t :: ts => t.offs ++ offsAll ts
end

mutual
/-- All keys of a tree, each with what is below it. -/
def Tree.nodes : Tree → List Tree
  | .mk off c name kids => .mk off c name kids :: nodesAll kids
/-- The same for a list of trees. -/
def nodesAll : List Tree → List Tree
  | [] => []
  | t :: ts => t.nodes ++ nodesAll ts
end

end Notatin.Spec
