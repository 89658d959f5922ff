import Verif.Model.Util
/-
Model of `/repo/src/cell.rs`, `/repo/src/file_info.rs` and the bit-flag macro of
`/repo/src/macros.rs`.
-/
namespace Notatin

/-- `FileInfo`, /repo/src/file_info.rs lines 22-25. -/
structure FileInfo where
  hbin : Nat
  buffer : Bytes
deriving Repr, DecidableEq

/-- `CellState`, /repo/src/cell.rs lines 21-29. -/
inductive CellState where
  | DeletedTransactionLog | DeletedPrimaryFile | DeletedPrimaryFileSlack
  | Allocated | ModifiedTransactionLog
deriving Repr, DecidableEq

/-- `CellState::is_deleted`, /repo/src/cell.rs lines 38-40 (the discriminant is negative). -/
def CellState.isDeleted : CellState → Bool
  | .DeletedTransactionLog | .DeletedPrimaryFile | .DeletedPrimaryFileSlack => true
  | .Allocated | .ModifiedTransactionLog => false

/-- `CellState::is_deleted_primary_file`, /repo/src/cell.rs lines 42-44. -/
def CellState.isDeletedPrimaryFile (s : CellState) : Bool :=
  s == .DeletedPrimaryFile || s == .DeletedPrimaryFileSlack

/-- `CellType`, /repo/src/cell.rs lines 47-58. -/
inductive CellType where
  | CellOther | CellKey | CellValue | CellSecurity | CellBigData | CellIndexRoot
  | CellHashLeaf | CellFastLeaf | CellIndexLeaf
deriving Repr, DecidableEq

/-- `CellType::read_cell_type`, /repo/src/cell.rs lines 61-80: first matching two-letter tag. -/
def CellType.readCellType (input : Bytes) : CellType :=
  if (tag [0x6E, 0x6B] input).isSome then .CellKey
  else if (tag [0x76, 0x6B] input).isSome then .CellValue
  else if (tag [0x73, 0x6B] input).isSome then .CellSecurity
  else if (tag [0x6C, 0x66] input).isSome then .CellFastLeaf
  else if (tag [0x6C, 0x69] input).isSome then .CellIndexLeaf
  else if (tag [0x6C, 0x68] input).isSome then .CellHashLeaf
  else if (tag [0x72, 0x69] input).isSome then .CellIndexRoot
  else if (tag [0x64, 0x62] input).isSome then .CellBigData
  else .CellOther

/-- `from_bits_checked` as generated by `impl_flags_from_bits!`, /repo/src/macros.rs lines 37-56.
`mask` is the union of the declared flags (`from_bits_truncate` keeps exactly those bits). -/
def fromBitsChecked (mask flags : Nat) (logs : Logs) : Nat × Logs :=
  let mapped := flags &&& mask
  (mapped, if flags ≠ mapped then logs.add .WarningUnrecognizedBitflag else logs)

/-- Union of the flags of `KeyNodeFlags`, /repo/src/cell_key_node.rs lines 829-856. -/
def keyNodeFlagsMask : Nat :=
  0x0001 ||| 0x0002 ||| 0x0004 ||| 0x0008 ||| 0x0010 ||| 0x0020 ||| 0x0040 ||| 0x0080
    ||| 0x0100 ||| 0x0200 ||| 0x1000 ||| 0x4000

/-- Union of the flags of `AccessFlags`, /repo/src/cell_key_node.rs lines 816-825. -/
def accessFlagsMask : Nat := 0x1 ||| 0x2

/-- Union of the flags of `CellKeyValueFlags`, /repo/src/cell_key_value.rs lines 210-216. -/
def keyValueFlagsMask : Nat := 0x1 ||| 0x2

/-- `CellKeyValueFlags::from_bits(flags).unwrap_or_default()`, /repo/src/cell_key_value.rs
line 324: `from_bits` is `None` when some bit is not declared. -/
def keyValueFlags (flags : Nat) : Nat :=
  if flags &&& keyValueFlagsMask = flags then flags else 0

/-- `flags.contains(f)` for a flag set `f`. -/
def containsFlag (flags f : Nat) : Bool := flags &&& f == f

end Notatin
