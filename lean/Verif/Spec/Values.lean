import Verif.Spec.Tree
import Verif.Spec.ValueData
import Verif.Spec.KeyReading
import Verif.Model.CellValue
/-
The values of a key as they are stored in a hive, written from the file format.
-/
namespace Notatin.Spec
open Notatin

/-- A value: its name (empty for the default value), the number of its type, its data. -/
structure Val where
  name : Str
  type : Nat
  data : Bytes
deriving DecidableEq, Repr

/-- The value is stored at the relative offset `off`: a value cell (name with one byte per character when
flag bit 0 is set, in UTF-16 otherwise), and its data in one of the three ways of the format. -/
def ValueAt (buf : Bytes) (hbin off : Nat) (v : Val) : Prop :=
  ∃ (c : VkCell) (locs : List Nat), c.Fits ∧ At buf (off + hbin) c.encode ∧
    ((c.flags.testBit 0 = true ∧ (∀ i, c.flags.testBit i = true → valueFlagBit i = true) ∧
        v.name = latin1 c.nameBytes) ∨
     (c.flags.testBit 0 = false ∧ c.nameBytes = utf16le v.name ∧ '\x00' ∉ v.name)) ∧
    c.dataType = v.type ∧ Stored buf hbin (off + hbin) c.dataSize c.dataOffset v.data locs ∧
    -- data longer than the width of its type, and data of more than 16344 bytes in one cell that
    -- starts with "db", are excluded: see C15
    ((DataType.ofRaw v.type).len = none ∨ ∃ n, (DataType.ofRaw v.type).len = some n ∧ v.data.length ≤ n) ∧
    (v.data.length ≤ 16344 ∨ v.data.take 2 ≠ [0x64, 0x62] ∨ 1 < locs.length)

/-- The key cell has exactly the values, in this order: its value list names their cells. -/
def ValuesAt (buf : Bytes) (hbin : Nat) (c : NkCell) (vs : List Val) : Prop :=
  c.nValues = vs.length ∧ vs.length ≤ 1048576 ∧
  (vs = [] ∨ ∃ (offs : List Nat) (listOff size : Nat), c.valuesList = (listOff : Int) ∧ 0 < listOff ∧
    size < 4294967296 ∧ (∀ x ∈ offs, x < 4294967296) ∧
    At buf (hbin + listOff) (encLE 4 size ++ offs.flatMap (encLE 4)) ∧
    Pairwise2 (ValueAt buf hbin) offs vs)

end Notatin.Spec
