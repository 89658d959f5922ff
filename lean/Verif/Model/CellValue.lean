import Verif.Model.Cell
import Verif.Model.Lznt1
/-
Model of the data types and typed content of `/repo/src/cell_key_value.rs` (lines 43-212) and of
`/repo/src/cell_value.rs`.
-/
namespace Notatin

/-- `CellKeyValueDataTypes`, /repo/src/cell_key_value.rs lines 44-95. -/
inductive DataType where
  | REG_NONE | REG_SZ | REG_EXPAND_SZ | REG_BIN | REG_DWORD | REG_DWORD_BIG_ENDIAN | REG_LINK
  | REG_MULTI_SZ | REG_RESOURCE_LIST | REG_FULL_RESOURCE_DESCRIPTOR
  | REG_RESOURCE_REQUIREMENTS_LIST | REG_QWORD | REG_FILETIME
  | REG_COMPOSITE_UINT8 | REG_COMPOSITE_INT16 | REG_COMPOSITE_UINT16 | REG_COMPOSITE_INT32
  | REG_COMPOSITE_UINT32 | REG_COMPOSITE_INT64 | REG_COMPOSITE_UINT64 | REG_COMPOSITE_FLOAT
  | REG_COMPOSITE_DOUBLE | REG_COMPOSITE_UNICODE_CHAR | REG_COMPOSITE_BOOLEAN
  | REG_COMPOSITE_UNICODE_STRING | REG_COMPOSITE_COMPOSITE_VALUE
  | REG_COMPOSITE_DATE_TIME_OFFSET | REG_COMPOSITE_TIME_SPAN | REG_COMPOSITE_GUID
  | REG_COMPOSITE_UNK_111 | REG_COMPOSITE_UNK_112 | REG_COMPOSITE_UNK_113
  | REG_COMPOSITE_BYTES_ARRAY | REG_COMPOSITE_INT16_ARRAY | REG_COMPOSITE_UINT16_ARRAY
  | REG_COMPOSITE_INT32_ARRAY | REG_COMPOSITE_UINT32_ARRAY | REG_COMPOSITE_INT64_ARRAY
  | REG_COMPOSITE_UINT64_ARRAY | REG_COMPOSITE_FLOAT_ARRAY | REG_COMPOSITE_DOUBLE_ARRAY
  | REG_COMPOSITE_UNICODE_CHAR_ARRAY | REG_COMPOSITE_BOOLEAN_ARRAY
  | REG_COMPOSITE_UNICODE_STRING_ARRAY | REG_UNKNOWN
deriving Repr, DecidableEq

/-- The discriminants of `CellKeyValueDataTypes`, /repo/src/cell_key_value.rs lines 46-95. -/
def dataTypeTable : List (Nat × DataType) := [
  (0x0000, .REG_NONE), (0x0001, .REG_SZ), (0x0002, .REG_EXPAND_SZ), (0x0003, .REG_BIN),
  (0x0004, .REG_DWORD), (0x0005, .REG_DWORD_BIG_ENDIAN), (0x0006, .REG_LINK),
  (0x0007, .REG_MULTI_SZ), (0x0008, .REG_RESOURCE_LIST),
  (0x0009, .REG_FULL_RESOURCE_DESCRIPTOR), (0x000A, .REG_RESOURCE_REQUIREMENTS_LIST),
  (0x000B, .REG_QWORD), (0x0010, .REG_FILETIME), (0x0101, .REG_COMPOSITE_UINT8),
  (0x0102, .REG_COMPOSITE_INT16), (0x0103, .REG_COMPOSITE_UINT16),
  (0x0104, .REG_COMPOSITE_INT32), (0x0105, .REG_COMPOSITE_UINT32),
  (0x0106, .REG_COMPOSITE_INT64), (0x0107, .REG_COMPOSITE_UINT64),
  (0x0108, .REG_COMPOSITE_FLOAT), (0x0109, .REG_COMPOSITE_DOUBLE),
  (0x010A, .REG_COMPOSITE_UNICODE_CHAR), (0x010B, .REG_COMPOSITE_BOOLEAN),
  (0x010C, .REG_COMPOSITE_UNICODE_STRING), (0x010D, .REG_COMPOSITE_COMPOSITE_VALUE),
  (0x010E, .REG_COMPOSITE_DATE_TIME_OFFSET), (0x010F, .REG_COMPOSITE_TIME_SPAN),
  (0x0110, .REG_COMPOSITE_GUID), (0x0111, .REG_COMPOSITE_UNK_111),
  (0x0112, .REG_COMPOSITE_UNK_112), (0x0113, .REG_COMPOSITE_UNK_113),
  (0x0114, .REG_COMPOSITE_BYTES_ARRAY), (0x0115, .REG_COMPOSITE_INT16_ARRAY),
  (0x0116, .REG_COMPOSITE_UINT16_ARRAY), (0x0117, .REG_COMPOSITE_INT32_ARRAY),
  (0x0118, .REG_COMPOSITE_UINT32_ARRAY), (0x0119, .REG_COMPOSITE_INT64_ARRAY),
  (0x011A, .REG_COMPOSITE_UINT64_ARRAY), (0x011B, .REG_COMPOSITE_FLOAT_ARRAY),
  (0x011C, .REG_COMPOSITE_DOUBLE_ARRAY), (0x011D, .REG_COMPOSITE_UNICODE_CHAR_ARRAY),
  (0x011E, .REG_COMPOSITE_BOOLEAN_ARRAY), (0x011F, .REG_COMPOSITE_UNICODE_STRING_ARRAY),
  (999, .REG_UNKNOWN)]

/-- `CellKeyValueDataTypes::from_u32` (derived `Primitive`). -/
def DataType.fromU32 (n : Nat) : Option DataType := dataTypeTable.lookup n

/-- `data_type as u32`: the discriminant, /repo/src/cell_key_value.rs lines 46-95. -/
def DataType.number (t : DataType) : Nat :=
  ((dataTypeTable.find? fun e => e.2 == t).map Prod.fst).getD 0

/-- The data type computed in `CellKeyValue::from_bytes`, /repo/src/cell_key_value.rs
lines 326-331 (mask `0xFFF`). -/
def DataType.ofRaw (raw : Nat) : DataType :=
  match DataType.fromU32 (raw &&& 0xFFF) with
  | none => .REG_UNKNOWN
  | some t => t

/-- `CellValue`, /repo/src/cell_value.rs lines 24-35. -/
inductive CellValue where
  | None
  | Binary (b : Bytes)
  | String (s : Str)
  | MultiString (m : List Str)
  | U32 (n : Nat)
  | I32 (i : Int)
  | U64 (n : Nat)
  | I64 (i : Int)
  | Error
deriving Repr, DecidableEq

/-- Two's complement reading of an unsigned 16-bit number (`i16::from_le_bytes`). -/
def toI16 (n : Nat) : Int := if n < 32768 then (n : Int) else (n : Int) - 65536
/-- Two's complement reading of an unsigned 64-bit number (`i64::from_le_bytes`). -/
def toI64 (n : Nat) : Int :=
  if n < 9223372036854775808 then (n : Int) else (n : Int) - 18446744073709551616

/-- `handle_invalid_input`, /repo/src/cell_key_value.rs lines 98-104. -/
def handleInvalidInput (input : Bytes) (logs : Logs) : CellValue × Logs :=
  (.Binary input, logs.add .WarningConversion)

/-- One numeric arm of `get_value_content`: `input.get(0..k)` then `from_le_bytes`. -/
def numericArm (k : Nat) (f : Bytes → CellValue) (input : Bytes) (logs : Logs) :
    Res (CellValue × Logs) :=
  match getRange input 0 k with
  | some val => .ok (f val, logs)
  | none => .ok (handleInvalidInput input logs)

/-- `get_value_content`, /repo/src/cell_key_value.rs lines 107-183 (`try_into` cannot fail: the
slice has exactly the length of the array). -/
def DataType.getValueContent (t : DataType) (inputVec : Option Bytes) (logs : Logs) :
    Res (CellValue × Logs) :=
  match inputVec with
  | none => .ok (.None, logs)
  | some input =>
    match t with
    | .REG_SZ | .REG_EXPAND_SZ | .REG_LINK =>
      match fromUtf16LeString input input.length logs with
      | .ok (s, logs) => .ok (.String s, logs)
      | .err => .err
      | .panic => .panic
    | .REG_COMPOSITE_UINT8 | .REG_COMPOSITE_BOOLEAN =>
      numericArm 1 (fun v => .U32 (leNat v)) input logs
    | .REG_COMPOSITE_INT16 => numericArm 2 (fun v => .I32 (toI16 (leNat v))) input logs
    | .REG_COMPOSITE_UINT16 => numericArm 2 (fun v => .U32 (leNat v)) input logs
    | .REG_DWORD | .REG_COMPOSITE_UINT32 => numericArm 4 (fun v => .U32 (leNat v)) input logs
    | .REG_DWORD_BIG_ENDIAN => numericArm 4 (fun v => .U32 (beNat v)) input logs
    | .REG_COMPOSITE_INT32 => numericArm 4 (fun v => .I32 (toI32 (leNat v))) input logs
    | .REG_COMPOSITE_INT64 => numericArm 8 (fun v => .I64 (toI64 (leNat v))) input logs
    | .REG_QWORD | .REG_COMPOSITE_UINT64 | .REG_FILETIME =>
      numericArm 8 (fun v => .U64 (leNat v)) input logs
    | .REG_MULTI_SZ =>
      match fromUtf16LeStrings input input.length logs with
      | .ok (m, logs) => .ok (.MultiString m, logs)
      | .err => .err
      | .panic => .panic
    | _ => .ok (.Binary input, logs)

/-- `get_data_type_len`, /repo/src/cell_key_value.rs lines 185-200. -/
def DataType.len : DataType → Option Nat
  | .REG_COMPOSITE_UINT8 => some 1
  | .REG_COMPOSITE_INT16 => some 2
  | .REG_COMPOSITE_UINT16 => some 2
  | .REG_DWORD | .REG_COMPOSITE_UINT32 | .REG_DWORD_BIG_ENDIAN => some 4
  | .REG_COMPOSITE_INT32 => some 4
  | .REG_COMPOSITE_INT64 => some 8
  | .REG_QWORD | .REG_COMPOSITE_UINT64 | .REG_FILETIME => some 8
  | _ => none

/-- `get_value_bytes`, /repo/src/cell_key_value.rs lines 202-207. -/
def DataType.getValueBytes (t : DataType) (input : Bytes) : Bytes :=
  match t.len with
  | some n => input.take (min n input.length)
  | none => input

/-- `CellKeyValue::get_content`, /repo/src/cell_key_value.rs lines 267-282, on the data type and
the value bytes of the value. -/
def getContent (t : DataType) (valueBytes : Option Bytes) : Res (CellValue × Option Logs) :=
  match t.getValueContent valueBytes {} with
  | .ok (v, w) => .ok (v, w.getOption)
  | .err => .ok (.Error, some (({} : Logs).add .WarningContent))
  | .panic => .panic

/-! ### `decode_content` -/

/-- `DecodeFormat`, /repo/src/cell_value.rs lines 61-66. -/
inductive DecodeFormat where
  | Lznt1 | Rot13 | Utf16 | Utf16Multiple
deriving Repr, DecidableEq

/-- `DecodeFormat::decode_string`, /repo/src/cell_value.rs lines 137-156. -/
def decodeString : CellValue → CellValue × Option Logs
  | .String s => (.String (decodeRot13 s), none)
  | .MultiString m => (.MultiString (m.map decodeRot13), none)
  | _ => (.Error, some (({} : Logs).add .WarningConversion))

/-- `DecodeFormat::decode_bytes`, /repo/src/cell_value.rs lines 91-135. The multi-string arm
passes `value_bytes.len()` as the count of the (shorter) slice. -/
def DecodeFormat.decodeBytes (fmt : DecodeFormat) (valueBytes : Bytes) (offset : Nat) :
    Res (CellValue × Option Logs) :=
  match fmt with
  | .Lznt1 =>
    match decodeLznt1 valueBytes offset valueBytes.length with
    | .ok d => .ok (.Binary d, none)
    | .err => .ok (.Error, some (({} : Logs).add .WarningConversion))
    | .panic => .panic
  | .Utf16 =>
    match getFrom valueBytes offset with
    | some slice =>
      match fromUtf16LeString slice (valueBytes.length - offset) {} with
      | .ok (s, w) => .ok (.String s, w.getOption)
      | .err => .err
      | .panic => .panic
    | none => .ok (.Error, some (({} : Logs).add .WarningConversion))
  | .Utf16Multiple =>
    match getFrom valueBytes offset with
    | some slice =>
      match fromUtf16LeStrings slice valueBytes.length {} with
      | .ok (m, w) => .ok (.MultiString m, w.getOption)
      | .err => .err
      | .panic => .panic
    | none => .ok (.Error, some (({} : Logs).add .WarningConversion))
  | .Rot13 => .ok (.None, none)

/-- `DecodeFormat::decode`, /repo/src/cell_value.rs lines 69-89. -/
def DecodeFormat.decode (fmt : DecodeFormat) (v : CellValue) (offset : Nat) :
    Res (CellValue × Option Logs) :=
  match fmt with
  | .Rot13 => .ok (decodeString v)
  | _ =>
    match v with
    | .Binary b => fmt.decodeBytes b offset
    | _ => .ok (.Error, some (({} : Logs).add .WarningConversion))

/-- `CellKeyValue::decode_content`, /repo/src/cell_key_value.rs lines 506-509. -/
def decodeContent (t : DataType) (valueBytes : Option Bytes) (fmt : DecodeFormat) (offset : Nat) :
    Res (CellValue × Option Logs) :=
  match getContent t valueBytes with
  | .ok (content, _) => fmt.decode content offset
  | .err => .err
  | .panic => .panic

end Notatin
