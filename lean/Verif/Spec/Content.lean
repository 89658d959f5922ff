import Verif.Model.CellValue
/-
What the typed content of a value is, by data type.  Written from the registry's documentation of
the types, with its own number readers.
-/
namespace Notatin.Spec
open Notatin

/-- Little-endian number. -/
def leVal (bs : Bytes) : Nat := bs.foldr (fun b a => b.toNat + 256 * a) 0
/-- Big-endian number. -/
def beVal (bs : Bytes) : Nat := bs.foldl (fun a b => a * 256 + b.toNat) 0
/-- Two's complement reading of `n` in `w` bytes. -/
def signedVal (w n : Nat) : Int := if 2 * n < 256 ^ w then (n : Int) else (n : Int) - ((256 ^ w : Nat) : Int)

/-- How the bytes of a data type are to be read. -/
inductive Kind where
  | unsigned (width : Nat)
  | signed (width : Nat)
  | bigEndian (width : Nat)
  | text
  | texts
  | raw
deriving DecidableEq

/-- The kind of every documented type. -/
def kindOf : DataType → Kind
  | .REG_SZ | .REG_EXPAND_SZ | .REG_LINK => .text
  | .REG_MULTI_SZ => .texts
  | .REG_DWORD => .unsigned 4
  | .REG_DWORD_BIG_ENDIAN => .bigEndian 4
  | .REG_QWORD | .REG_FILETIME => .unsigned 8
  | .REG_COMPOSITE_UINT8 | .REG_COMPOSITE_BOOLEAN => .unsigned 1
  | .REG_COMPOSITE_UINT16 => .unsigned 2
  | .REG_COMPOSITE_UINT32 => .unsigned 4
  | .REG_COMPOSITE_UINT64 => .unsigned 8
  | .REG_COMPOSITE_INT16 => .signed 2
  | .REG_COMPOSITE_INT32 => .signed 4
  | .REG_COMPOSITE_INT64 => .signed 8
  | _ => .raw

/-- Width in bytes of a numeric kind. -/
def Kind.width : Kind → Option Nat
  | .unsigned w | .signed w | .bigEndian w => some w
  | _ => none

/-- The number stored in the first bytes. -/
def Kind.number : Kind → Bytes → Option Int
  | .unsigned w, bs => some (leVal (bs.take w))
  | .signed w, bs => some (signedVal w (leVal (bs.take w)))
  | .bigEndian w, bs => some (beVal (bs.take w))
  | _, _ => none

/-- The number carried by a decoded value. -/
def numberOf : CellValue → Option Int
  | .U32 n => some n
  | .I32 i => some i
  | .U64 n => some n
  | .I64 i => some i
  | _ => none

end Notatin.Spec
