import Verif.Model.Util
/-
Model of `/repo/src/base_block.rs`.
GUIDs (`winstructs::Guid`) are kept as their 16 raw bytes: `Guid::from_buffer` on 16 bytes
cannot fail, so `get_guid_from_buffer` (/repo/src/util.rs lines 188-195) adds no log.
`nom`'s streaming `take` differs from the complete one only in the error kind.
-/
namespace Notatin

/-- `FileType`, /repo/src/base_block.rs lines 37-44. -/
inductive FileType where
  | primary | transactionLog | transactionLogNewFormat | unknown
deriving DecidableEq, Repr

/-- `FileType::from_value` (`impl_enum_from_value!`, /repo/src/macros.rs lines 62-76). -/
def FileType.fromValue (v : Nat) (logs : Logs) : FileType × Logs :=
  if v = 0 then (.primary, logs)
  else if v = 1 then (.transactionLog, logs)
  else if v = 6 then (.transactionLogNewFormat, logs)
  else if v = 0x0fffffff then (.unknown, logs)
  else (.unknown, logs.add .WarningConversion)

/-- `FileFormat`, /repo/src/base_block.rs lines 47-52. -/
inductive FileFormat where
  | directMemoryLoad | unknown
deriving DecidableEq, Repr

/-- `FileFormat::from_value`. -/
def FileFormat.fromValue (v : Nat) (logs : Logs) : FileFormat × Logs :=
  if v = 1 then (.directMemoryLoad, logs)
  else if v = 0x0fffffff then (.unknown, logs)
  else (.unknown, logs.add .WarningConversion)

/-- `FileBaseBlockReservedFlags`, /repo/src/base_block.rs lines 251-261. -/
inductive ReservedFlags where
  | none | ktmLockedHive | ktm2 | unknown
deriving DecidableEq, Repr

/-- `FileBaseBlockReservedFlags::from_value`. -/
def ReservedFlags.fromValue (v : Nat) (logs : Logs) : ReservedFlags × Logs :=
  if v = 0 then (.none, logs)
  else if v = 1 then (.ktmLockedHive, logs)
  else if v = 2 then (.ktm2, logs)
  else if v = 0x0fffffff then (.unknown, logs)
  else (.unknown, logs.add .WarningConversion)

/-- `BaseBlockBase`, /repo/src/base_block.rs lines 74-96. -/
structure BaseBlockBase where
  primarySeq : Nat
  secondarySeq : Nat
  lastModification : Int
  majorVersion : Nat
  minorVersion : Nat
  fileType : FileType
  format : FileFormat
  rootCellOffset : Int
  hiveBinsDataSize : Nat
  clusteringFactor : Nat
  filename : Str
  unk2 : Bytes
  checksum : Nat
  logs : Logs
deriving DecidableEq, Repr

/-- `tag("regf")`. -/
def regf : Bytes := [0x72, 0x65, 0x67, 0x66]

/-- `BaseBlockBase::from_bytes`, /repo/src/base_block.rs lines 103-141. -/
def BaseBlockBase.fromBytes (input : Bytes) : Res (BaseBlockBase × Bytes) := do
  let (_, input) ← Res.ofOption (tag regf input)
  let (primarySeq, input) ← Res.ofOption (leU32 input)
  let (secondarySeq, input) ← Res.ofOption (leU32 input)
  let (time, input) ← Res.ofOption (leU64 input)
  let (majorVersion, input) ← Res.ofOption (leU32 input)
  let (minorVersion, input) ← Res.ofOption (leU32 input)
  let (fileTypeBytes, input) ← Res.ofOption (leU32 input)
  let (formatBytes, input) ← Res.ofOption (leU32 input)
  let (rootCellOffset, input) ← Res.ofOption (leI32 input)
  let (hiveBinsDataSize, input) ← Res.ofOption (leU32 input)
  let (clusteringFactor, input) ← Res.ofOption (leU32 input)
  let (filenameBytes, input) ← Res.ofOption (take 64 input)
  let (unk2, input) ← Res.ofOption (take 396 input)
  let (checksum, input) ← Res.ofOption (leU32 input)
  let ft := FileType.fromValue fileTypeBytes {}
  let ff := FileFormat.fromValue formatBytes ft.2
  let (filename, logs) ← fromUtf16LeString filenameBytes 64 ff.2
  .ok ({ primarySeq, secondarySeq, lastModification := dateTimeFromFiletime time, majorVersion,
         minorVersion, fileType := ft.1, format := ff.1, rootCellOffset, hiveBinsDataSize,
         clusteringFactor, filename, unk2, checksum, logs }, input)

/-- Loop of `calculate_checksum`, /repo/src/base_block.rs lines 151-157: `n` dwords remain of
the 127 with index `0, 4, …, 0x1F8` (`while index <= 0x01FB`). -/
def checksumLoop (bytes : Bytes) : Nat → Nat → Nat → Res Nat
  | 0, _, xsum => .ok xsum
  | n + 1, index, xsum =>
    match getRange bytes index (index + 4) with
    | none => .err
    | some s => checksumLoop bytes n (index + 4) (xsum ^^^ leNat s)

/-- Number of loop iterations: the indices `0, 4, …` that are `≤ 0x01FB`. -/
def checksumSteps : Nat := 0x01FB / 4 + 1

/-- `BaseBlockBase::calculate_checksum`, /repo/src/base_block.rs lines 143-164. -/
def calculateChecksum (bytes : Bytes) : Res Nat :=
  match checksumLoop bytes checksumSteps 0 0 with
  | .ok xsum => .ok (if xsum = 0 then 1 else if xsum = 0xFFFFFFFF then 0xFFFFFFFE else xsum)
  | .err => .err
  | .panic => .panic

/-- `FileBaseBlockReserved`, /repo/src/base_block.rs lines 195-205. -/
structure Reserved where
  rmId : Bytes
  logId : Bytes
  flags : ReservedFlags
  tmId : Bytes
  signature : Nat
  lastReorganized : Int
  remaining : Bytes
  logs : Logs
deriving DecidableEq, Repr

/-- `FileBaseBlockReserved::from_bytes`, /repo/src/base_block.rs lines 223-248. -/
def Reserved.fromBytes (input : Bytes) : Option (Reserved × Bytes) := do
  let (rmId, input) ← take 16 input
  let (logId, input) ← take 16 input
  let (flags, input) ← leU32 input
  let (tmId, input) ← take 16 input
  let (signature, input) ← leU32 input
  let (time, input) ← leU64 input
  let (remaining, input) ← take 3512 input
  let fl := ReservedFlags.fromValue flags {}
  some ({ rmId, logId, flags := fl.1, tmId, signature,
          lastReorganized := dateTimeFromFiletime time, remaining, logs := fl.2 }, input)

/-- `BaseBlockExtended`, /repo/src/base_block.rs lines 168-173. -/
structure BaseBlockExtended where
  reserved : Reserved
  bootType : Nat
  bootRecover : Nat
deriving DecidableEq, Repr

/-- `BaseBlockExtended::from_bytes`, /repo/src/base_block.rs lines 177-190. -/
def BaseBlockExtended.fromBytes (input : Bytes) : Option (BaseBlockExtended × Bytes) := do
  let (reserved, input) ← Reserved.fromBytes input
  let (bootType, input) ← leU32 input
  let (bootRecover, input) ← leU32 input
  some ({ reserved, bootType, bootRecover }, input)

/-- `BaseBlock`, /repo/src/base_block.rs lines 55-58. -/
structure BaseBlock where
  base : BaseBlockBase
  ext : BaseBlockExtended
deriving DecidableEq, Repr

/-- `BaseBlock::from_bytes`, /repo/src/base_block.rs lines 62-67. -/
def BaseBlock.fromBytes (input : Bytes) : Res (BaseBlock × Bytes) := do
  let (base, input) ← BaseBlockBase.fromBytes input
  let (ext, input) ← Res.ofOption (BaseBlockExtended.fromBytes input)
  .ok ({ base, ext }, input)

end Notatin
