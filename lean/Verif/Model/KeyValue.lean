import Verif.Model.CellValue
/-
Model of `/repo/src/cell_big_data.rs` and of the value cell (`vk`) of
`/repo/src/cell_key_value.rs` (lines 226-513).  Only the variant without full field information is
modelled (`get_full_field_info == false`).
-/
namespace Notatin

/-! ### Big data -/

/-- `CellKeyValue::BIG_DATA_SIZE_THRESHOLD`, /repo/src/cell_key_value.rs line 263. -/
def bigDataThreshold : Nat := 16344

/-- `CellBigData`, /repo/src/cell_big_data.rs lines 31-37 (logs are always empty). -/
structure BigData where
  size : Nat
  count : Nat
  segmentListOffset : Nat
deriving Repr, DecidableEq

/-- `CellBigData::from_bytes`, /repo/src/cell_big_data.rs lines 87-106. -/
def BigData.fromBytes (input : Bytes) : Option (BigData × Bytes) := do
  let (size, input) ← leI32 input
  let (_, input) ← tag [0x64, 0x62] input
  let (count, input) ← leU16 input
  let (segmentListOffset, input) ← leU32 input
  some ({ size := unsignedAbs size, count, segmentListOffset }, input)

/-- `CellBigData::is_big_data_block`, /repo/src/cell_big_data.rs lines 77-84. -/
def isBigDataBlock (input : Bytes) : Bool :=
  match getFrom input 4 with
  | some slice => (tag [0x64, 0x62] slice).isSome
  | none => false

/-- `parse_big_data_size`, /repo/src/cell_big_data.rs lines 108-117. -/
def parseBigDataSize (fi : FileInfo) (offset : Nat) : Option (Int × Bytes) := do
  let slice ← getFrom fi.buffer (fi.hbin + offset)
  leI32 slice

/-- `parse_big_data_offsets`, /repo/src/cell_big_data.rs lines 119-130. -/
def BigData.parseOffsets (fi : FileInfo) (b : BigData) : Option (List Nat) := do
  let slice ← getFrom fi.buffer (fi.hbin + b.segmentListOffset)
  let (_, input) ← leU32 slice
  let (list, _) ← Notatin.count leU32 b.count input
  some list

/-- The segment loop of `get_big_data_bytes`, /repo/src/cell_big_data.rs lines 55-70. -/
def bigDataLoop (fi : FileInfo) : List Nat → Nat → Option Bytes
  | [], _ => some []
  | offset :: offsets, remaining =>
    if remaining > 0 then
      match parseBigDataSize fi offset with
      | none => none
      | some (size, input) =>
        let sizeToRead := min (unsignedAbs size) (min remaining bigDataThreshold)
        match getRange input 0 sizeToRead with
        | none => none
        | some slice =>
          match bigDataLoop fi offsets (remaining - sizeToRead) with
          | none => none
          | some rest => some (slice ++ rest)
    else bigDataLoop fi offsets remaining

/-- `get_big_data_bytes`, /repo/src/cell_big_data.rs lines 41-75. -/
def getBigDataBytes (fi : FileInfo) (offset : Nat) (t : DataType) (dataSize : Nat) :
    Option (Bytes × List Nat) := do
  let slice ← getFrom fi.buffer offset
  let (bd, _) ← BigData.fromBytes slice
  let offsets ← bd.parseOffsets fi
  let bytes ← bigDataLoop fi offsets dataSize
  some (t.getValueBytes bytes, offsets)

/-! ### Value cells -/

/-- `CellKeyValue` with its `CellKeyValueDetail`, /repo/src/cell_key_value.rs lines 219-251;
everything except `versions`. -/
structure KeyValue where
  fileOffset : Nat
  size : Int
  nameSize : Nat
  dataSizeRaw : Nat
  dataOffset : Nat
  dataTypeRaw : Nat
  flagsRaw : Nat
  padding : Nat
  name : Str
  slack : Bytes
  valueBytes : Option Bytes := none
  dataType : DataType
  flags : Nat
  dataOffsets : List Nat := []
  cellState : CellState := .Allocated
  logs : Logs := {}
  hash : Option Bytes := none
  seq : Option Nat := none
  updatedBySeq : Option Nat := none
deriving Repr, DecidableEq

/-- `CellKeyValue` including `versions`. -/
inductive Value where
  | mk (val : KeyValue) (versions : List Value)
deriving Repr

/-- The value itself. -/
def Value.val : Value → KeyValue
  | .mk v _ => v
/-- `CellKeyValue::versions`. -/
def Value.versions : Value → List Value
  | .mk _ vs => vs

/-- `CellKeyValue::check_size`, /repo/src/cell_key_value.rs lines 415-418. -/
def valueCheckSize (size : Int) (inputLen : Nat) : Bool :=
  decide (24 ≤ unsignedAbs size) && decide (unsignedAbs size ≤ inputLen)

/-- The name step of `CellKeyValue::from_bytes`, /repo/src/cell_key_value.rs lines 335-345. -/
def vkName (flags : Nat) (nameBytes : Bytes) (n : Nat) : Res (Str × Logs) :=
  if n = 0 then Res.ok ([], {}) else stringFromBytes (containsFlag flags 1) nameBytes n {}

/-- `CellKeyValue::from_bytes`, /repo/src/cell_key_value.rs lines 289-374. -/
def KeyValue.fromBytes (inputOrig : Bytes) (fileOffset : Nat) (seq : Option Nat) :
    Res (KeyValue × Bytes) := do
  let (size, input) ← Res.ofOption (leI32 inputOrig)
  if !valueCheckSize size inputOrig.length then .err
  else do
    let (_, input) ← Res.ofOption (tag [0x76, 0x6B] input)
    let (nameSize, input) ← Res.ofOption (leU16 input)
    let (dataSizeRaw, input) ← Res.ofOption (leU32 input)
    let (dataOffset, input) ← Res.ofOption (leU32 input)
    let (dataTypeRaw, input) ← Res.ofOption (leU32 input)
    let (flagsRaw, input) ← Res.ofOption (leU16 input)
    let (padding, input) ← Res.ofOption (leU16 input)
    let (nameBytes, input) ← Res.ofOption (take nameSize input)
    let flags := keyValueFlags flagsRaw
    let (name, logs) ← vkName flags nameBytes nameSize
    let (slack, input) ← Res.ofOption
      (eatRemaining input (unsignedAbs size) (inputOrig.length - input.length))
    .ok ({ fileOffset, size, nameSize, dataSizeRaw, dataOffset, dataTypeRaw, flagsRaw, padding,
           name, slack, dataType := DataType.ofRaw dataTypeRaw, flags, logs, seq }, input)

/-- `read_value_bytes_direct`, /repo/src/cell_key_value.rs lines 420-494. -/
def readValueBytesDirect (fileOffset dataSizeRaw dataOffset : Nat) (t : DataType)
    (fi : FileInfo) (logs : Logs) : Bytes × List Nat × Logs :=
  if dataSizeRaw &&& 0x80000000 = 0 then
    let offset := dataOffset + fi.hbin
    match getFrom fi.buffer offset with
    | some slice =>
      if bigDataThreshold < dataSizeRaw ∧ isBigDataBlock slice = true then
        match getBigDataBytes fi offset t dataSizeRaw with
        | some (vb, offsets) => (vb, offsets, logs)
        | none => ([], [], logs.add .WarningBigDataContent)
      else
        let offset := offset + 4
        match getRange fi.buffer offset (offset + dataSizeRaw) with
        | some slice => (t.getValueBytes slice, [offset], logs)
        | none => ([], [offset], logs.add .WarningParse)
    | none => ([], [], logs.add .WarningParse)
  else
    let offsets := [fileOffset + 12]
    let dataSize := dataSizeRaw ^^^ 0x80000000
    match getRange (u32ToLeBytes dataOffset) 0 dataSize with
    | some slice => (t.getValueBytes slice, offsets, logs)
    | none => ([], offsets, logs.add .WarningBigDataContent)

/-- `CellKeyValue::hash`, /repo/src/cell_key_value.rs lines 496-502; `hashFn` is blake3. -/
def KeyValue.hashOf (hashFn : Bytes → Bytes) (dataTypeRaw flagsRaw : Nat) (valueBytes : Bytes) :
    Bytes :=
  hashFn (u32ToLeBytes dataTypeRaw ++ u16ToLeBytes flagsRaw ++ valueBytes)

/-- `read_value_bytes`, /repo/src/cell_key_value.rs lines 377-400. -/
def KeyValue.readValueBytes (v : KeyValue) (hashFn : Bytes → Bytes) (fi : FileInfo) : KeyValue :=
  let (valueBytes, offsets, logs) :=
    readValueBytesDirect v.fileOffset v.dataSizeRaw v.dataOffset v.dataType fi v.logs
  { v with
    logs
    dataOffsets := v.dataOffsets ++ offsets
    hash := some (KeyValue.hashOf hashFn v.dataTypeRaw v.flagsRaw valueBytes)
    valueBytes := some valueBytes }

/-- `get_cell_size`, /repo/src/cell_key_value.rs lines 403-405. -/
def KeyValue.cellSize (v : KeyValue) : Nat := unsignedAbs v.size

/-- `is_free`, /repo/src/cell_key_value.rs lines 407-409. -/
def KeyValue.isFree (v : KeyValue) : Bool := decide (v.size > 0)

/-- `slack_offset_absolute`, /repo/src/cell_key_value.rs lines 411-413 (the slack is never longer
than the cell, so the subtraction does not underflow). -/
def KeyValue.slackOffset (v : KeyValue) : Nat := v.fileOffset + v.cellSize - v.slack.length

/-- `get_pretty_name`, /repo/src/cell_key_value.rs lines 284-286. -/
def KeyValue.prettyName (v : KeyValue) : Str := getPrettyName v.name

end Notatin
