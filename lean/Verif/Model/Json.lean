import Verif.Model.Xlsx
/-
Model of the JSONL export: /repo/bin/reg_dump/json_writer.rs, the `Serialize` implementations of
keys, values and what they consist of (derived, /repo/src/macros.rs, /repo/src/field_serializers.rs,
/repo/src/field_offset_len.rs), and `serde_json::to_string`.

Simplified: the texts that `format_date_time` and `{:?}` of flags make and the texts of logs are
parameters.  The signature of a key is always `nk` (that of the key that stands in for a missing root
is empty).  The progress display is dropped.
-/
namespace Notatin

/-- The serde data model as far as it is used. -/
inductive Json where
  | null
  | num (i : Int)
  | str (s : Str)
  | arr (xs : List Json)
  | obj (fs : List (String × Json))

/-- A character in a string of `serde_json` (`format_escaped_str_contents`). -/
def jsonChar (c : Char) : Str :=
  if c = '"' then ['\\', '"']
  else if c = '\\' then ['\\', '\\']
  else if c.toNat = 8 then ['\\', 'b']
  else if c.toNat = 9 then ['\\', 't']
  else if c.toNat = 10 then ['\\', 'n']
  else if c.toNat = 12 then ['\\', 'f']
  else if c.toNat = 13 then ['\\', 'r']
  else if c.toNat < 32 then
    ['\\', 'u', '0', '0', Nat.digitChar (c.toNat / 16), Nat.digitChar (c.toNat % 16)]
  else [c]

/-- A string with its quotes. -/
def jsonString (s : Str) : Str := '"' :: s.flatMap jsonChar ++ ['"']

mutual
/-- `serde_json::to_string`: no white space. -/
def Json.text : Json → Str
  | .null => ['n', 'u', 'l', 'l']
  | .num i => intText i
  | .str s => jsonString s
  | .arr [] => ['[', ']']
  | .arr (x :: xs) => '[' :: x.text ++ itemsText xs
  | .obj [] => ['{', '}']
  | .obj ((n, x) :: fs) => '{' :: jsonString n.toList ++ ':' :: x.text ++ fieldsText fs
/-- The elements after the first. -/
def itemsText : List Json → Str
  | [] => [']']
  | x :: xs => ',' :: x.text ++ itemsText xs
/-- The fields after the first. -/
def fieldsText : List (String × Json) → Str
  | [] => ['}']
  | (n, x) :: fs => ',' :: jsonString n.toList ++ ':' :: x.text ++ fieldsText fs
end

/-- The texts that are not modelled. -/
structure JsonTexts where
  time : KeyNode → Str
  flags : KeyNode → Str
  access : KeyNode → Str
  /-- The warning about flag bits that have no name. -/
  flagLog : Nat → Str
  valueFlags : Nat → Str
  /-- The text of an entry of a log. -/
  logText : Logs → Nat → Str

/-- A text without special characters. -/
def Json.name (s : String) : Json := .str s.toList

/-- A number. -/
def Json.nat (n : Nat) : Json := .num (Int.ofNat n)

/-- An optional number. -/
def Json.optNat : Option Nat → Json
  | some n => .nat n
  | none => .null

/-- Bytes as a list of numbers (`Vec<u8>`). -/
def Json.bytes (b : Bytes) : Json := .arr (b.map fun x => .nat x.toNat)

/-- `LogCode`, /repo/src/log.rs lines 104-118. -/
def LogCode.name : LogCode → String
  | .WarningOther => "WarningOther"
  | .WarningNom => "WarningNom"
  | .WarningConversion => "WarningConversion"
  | .WarningContent => "WarningContent"
  | .WarningBigDataContent => "WarningBigDataContent"
  | .WarningUnrecognizedBitflag => "WarningUnrecognizedBitflag"
  | .WarningTransactionLog => "WarningTransactionLog"
  | .WarningIterator => "WarningIterator"
  | .WarningBaseBlock => "WarningBaseBlock"
  | .WarningParse => "WarningParse"
  | .WarningRecovery => "WarningRecovery"
  | .Info => "Info"

/-- The entries of a log from the `i`-th on, /repo/src/log.rs lines 120-124. -/
def jsonLogs (text : Nat → Str) : Nat → List LogCode → List Json
  | _, [] => []
  | i, c :: cs => .obj [("code", .name c.name), ("text", .str (text i))] :: jsonLogs text (i + 1) cs

/-- `Logs`, /repo/src/log.rs lines 22-25. -/
def Logs.json (t : JsonTexts) (l : Logs) : Json :=
  .obj [("logs", match l.logs with
    | none => .null
    | some cs => .arr (jsonLogs (t.logText l) 0 cs))]

/-- `CellState`, /repo/src/cell.rs lines 20-29. -/
def CellState.name : CellState → String
  | .DeletedTransactionLog => "DeletedTransactionLog"
  | .DeletedPrimaryFile => "DeletedPrimaryFile"
  | .DeletedPrimaryFileSlack => "DeletedPrimaryFileSlack"
  | .Allocated => "Allocated"
  | .ModifiedTransactionLog => "ModifiedTransactionLog"

/-- `CellKeyValueDataTypes`, /repo/src/cell_key_value.rs lines 44-95. -/
def DataType.name : DataType → String
  | .REG_NONE => "REG_NONE"
  | .REG_SZ => "REG_SZ"
  | .REG_EXPAND_SZ => "REG_EXPAND_SZ"
  | .REG_BIN => "REG_BIN"
  | .REG_DWORD => "REG_DWORD"
  | .REG_DWORD_BIG_ENDIAN => "REG_DWORD_BIG_ENDIAN"
  | .REG_LINK => "REG_LINK"
  | .REG_MULTI_SZ => "REG_MULTI_SZ"
  | .REG_RESOURCE_LIST => "REG_RESOURCE_LIST"
  | .REG_FULL_RESOURCE_DESCRIPTOR => "REG_FULL_RESOURCE_DESCRIPTOR"
  | .REG_RESOURCE_REQUIREMENTS_LIST => "REG_RESOURCE_REQUIREMENTS_LIST"
  | .REG_QWORD => "REG_QWORD"
  | .REG_FILETIME => "REG_FILETIME"
  | .REG_COMPOSITE_UINT8 => "REG_COMPOSITE_UINT8"
  | .REG_COMPOSITE_INT16 => "REG_COMPOSITE_INT16"
  | .REG_COMPOSITE_UINT16 => "REG_COMPOSITE_UINT16"
  | .REG_COMPOSITE_INT32 => "REG_COMPOSITE_INT32"
  | .REG_COMPOSITE_UINT32 => "REG_COMPOSITE_UINT32"
  | .REG_COMPOSITE_INT64 => "REG_COMPOSITE_INT64"
  | .REG_COMPOSITE_UINT64 => "REG_COMPOSITE_UINT64"
  | .REG_COMPOSITE_FLOAT => "REG_COMPOSITE_FLOAT"
  | .REG_COMPOSITE_DOUBLE => "REG_COMPOSITE_DOUBLE"
  | .REG_COMPOSITE_UNICODE_CHAR => "REG_COMPOSITE_UNICODE_CHAR"
  | .REG_COMPOSITE_BOOLEAN => "REG_COMPOSITE_BOOLEAN"
  | .REG_COMPOSITE_UNICODE_STRING => "REG_COMPOSITE_UNICODE_STRING"
  | .REG_COMPOSITE_COMPOSITE_VALUE => "REG_COMPOSITE_COMPOSITE_VALUE"
  | .REG_COMPOSITE_DATE_TIME_OFFSET => "REG_COMPOSITE_DATE_TIME_OFFSET"
  | .REG_COMPOSITE_TIME_SPAN => "REG_COMPOSITE_TIME_SPAN"
  | .REG_COMPOSITE_GUID => "REG_COMPOSITE_GUID"
  | .REG_COMPOSITE_UNK_111 => "REG_COMPOSITE_UNK_111"
  | .REG_COMPOSITE_UNK_112 => "REG_COMPOSITE_UNK_112"
  | .REG_COMPOSITE_UNK_113 => "REG_COMPOSITE_UNK_113"
  | .REG_COMPOSITE_BYTES_ARRAY => "REG_COMPOSITE_BYTES_ARRAY"
  | .REG_COMPOSITE_INT16_ARRAY => "REG_COMPOSITE_INT16_ARRAY"
  | .REG_COMPOSITE_UINT16_ARRAY => "REG_COMPOSITE_UINT16_ARRAY"
  | .REG_COMPOSITE_INT32_ARRAY => "REG_COMPOSITE_INT32_ARRAY"
  | .REG_COMPOSITE_UINT32_ARRAY => "REG_COMPOSITE_UINT32_ARRAY"
  | .REG_COMPOSITE_INT64_ARRAY => "REG_COMPOSITE_INT64_ARRAY"
  | .REG_COMPOSITE_UINT64_ARRAY => "REG_COMPOSITE_UINT64_ARRAY"
  | .REG_COMPOSITE_FLOAT_ARRAY => "REG_COMPOSITE_FLOAT_ARRAY"
  | .REG_COMPOSITE_DOUBLE_ARRAY => "REG_COMPOSITE_DOUBLE_ARRAY"
  | .REG_COMPOSITE_UNICODE_CHAR_ARRAY => "REG_COMPOSITE_UNICODE_CHAR_ARRAY"
  | .REG_COMPOSITE_BOOLEAN_ARRAY => "REG_COMPOSITE_BOOLEAN_ARRAY"
  | .REG_COMPOSITE_UNICODE_STRING_ARRAY => "REG_COMPOSITE_UNICODE_STRING_ARRAY"
  | .REG_UNKNOWN => "REG_UNKNOWN"

/-- `CellValue`, /repo/src/cell_value.rs lines 23-35; bytes are hexadecimal text,
/repo/src/field_serializers.rs lines 23-28. -/
def CellValue.json : CellValue → Json
  | .None => .name "None"
  | .Binary b => .obj [("Binary", .str (toHexString b))]
  | .String s => .obj [("String", .str s)]
  | .MultiString m => .obj [("MultiString", .arr (m.map .str))]
  | .U32 n => .obj [("U32", .nat n)]
  | .I32 i => .obj [("I32", .num i)]
  | .U64 n => .obj [("U64", .nat n)]
  | .I64 i => .obj [("I64", .num i)]
  | .Error => .name "Error"

/-- A field of a detail: its name, its value, its length in the file, and what a serializer of
/repo/src/field_serializers.rs adds. -/
structure DetailField where
  name : String
  value : Json
  len : Nat
  extra : List (String × Json) := []

/-- The fields as `FieldLight` or `FieldFull`, /repo/src/field_offset_len.rs lines 32-37, 79-82,
/repo/src/field_serializers.rs lines 98-109.  The offset of a field is what was read before it,
/repo/src/field_offset_len.rs lines 236-264. -/
def detailFields (full : Bool) : Nat → List DetailField → List (String × Json)
  | _, [] => []
  | off, f :: fs =>
    (f.name, .obj ([("value", f.value)] ++
      (if full then [("offset", .nat off), ("len", .nat f.len)] else []) ++ f.extra)) ::
      detailFields full (off + f.len) fs

/-- The variant of the detail. -/
def detailJson (full : Bool) (fs : List (String × Json)) : Json :=
  .obj [(if full then "Full" else "Light", .obj fs)]

/-- What is added to a field with flags, /repo/src/field_serializers.rs lines 43-71. -/
def flagExtra (t : JsonTexts) (mask bits : Nat) (text : Str) : List (String × Json) :=
  ("interpreted", .str text) ::
    if (fromBitsChecked mask bits {}).2.hasLogs then [("logs", .str (t.flagLog bits))] else []

/-- The fields of `CellKeyNodeDetail` but the last, /repo/src/cell_key_node.rs lines 53-78. -/
def keyFields (t : JsonTexts) (k : KeyNode) : List DetailField :=
    [⟨"size", .num k.size, 4, []⟩, ⟨"signature", .name "nk", 2, []⟩,
     ⟨"key_node_flag_bits", .nat k.flagBits, 2, flagExtra t keyNodeFlagsMask k.flagBits (t.flags k)⟩,
     ⟨"last_key_written_date_and_time", .nat k.lastWritten, 8, [("interpreted", .str (t.time k))]⟩,
     ⟨"access_flag_bits", .nat k.accessBits, 4, flagExtra t accessFlagsMask k.accessBits (t.access k)⟩,
     ⟨"parent_key_offset_relative", .num k.parentOffset, 4, []⟩,
     ⟨"number_of_sub_keys", .nat k.nSubKeys, 4, []⟩,
     ⟨"number_of_volatile_sub_keys", .nat k.nVolatileSubKeys, 4, []⟩,
     ⟨"sub_keys_list_offset_relative", .nat k.subKeysListOffset, 4, []⟩,
     ⟨"volatile_sub_keys_list_offset_relative", .num k.volatileListOffset, 4, []⟩,
     ⟨"number_of_key_values", .nat k.nValues, 4, []⟩,
     ⟨"key_values_list_offset_relative", .num k.valuesListOffset, 4, []⟩,
     ⟨"security_key_offset_relative", .nat k.securityOffset, 4, []⟩,
     ⟨"class_name_offset_relative", .num k.classNameOffset, 4, []⟩,
     ⟨"largest_sub_key_name_size", .nat k.largestSubKeyName, 4, []⟩,
     ⟨"largest_sub_key_class_name_size", .nat k.largestSubKeyClassName, 4, []⟩,
     ⟨"largest_value_name_size", .nat k.largestValueName, 4, []⟩,
     ⟨"largest_value_data_size", .nat k.largestValueData, 4, []⟩,
     ⟨"work_var", .nat k.workVar, 4, []⟩, ⟨"key_name_size", .nat k.nameSize, 2, []⟩,
     ⟨"class_name_size", .nat k.classNameSize, 2, []⟩]

/-- `CellKeyNodeDetail`.  Between the size of the class name and the slack is the name, which is not
part of it. -/
def keyDetail (t : JsonTexts) (full : Bool) (k : KeyNode) : List (String × Json) :=
  detailFields full 0 (keyFields t k) ++
  detailFields full (80 + k.nameSize) [⟨"slack", .bytes k.slack, k.slack.length, []⟩]

/-- The fields of `CellKeyValueDetail`, /repo/src/cell_key_value.rs lines 219-235; the bytes of the
data are skipped. -/
def valueFields (v : KeyValue) : List DetailField :=
    [⟨"size", .num v.size, 4, []⟩, ⟨"signature", .name "vk", 2, []⟩,
     ⟨"value_name_size", .nat v.nameSize, 2, []⟩, ⟨"data_size_raw", .nat v.dataSizeRaw, 4, []⟩,
     ⟨"data_offset_relative", .nat v.dataOffset, 4, []⟩, ⟨"data_type_raw", .nat v.dataTypeRaw, 4, []⟩,
     ⟨"flags_raw", .nat v.flagsRaw, 2, []⟩, ⟨"padding", .nat v.padding, 2, []⟩,
     ⟨"value_name", .str v.name, v.nameSize, [("interpreted", .str v.prettyName)]⟩,
     ⟨"slack", .bytes v.slack, v.slack.length, []⟩]

mutual
/-- `CellKeyValueForSerialization`, /repo/src/cell_key_value.rs lines 536-572. -/
def valueJson (t : JsonTexts) (full : Bool) : Value → Res Json
  | .mk v vs => do
    let (content, warnings) ← getContent v.dataType v.valueBytes
    let versions ← valuesJson t full vs
    .ok (.obj [("file_offset_absolute", .nat v.fileOffset),
      ("detail", detailJson full (detailFields full 0 (valueFields v))), ("data_type", .name v.dataType.name),
      ("flags", .str (t.valueFlags v.flags)), ("value_name", .str v.prettyName),
      ("cell_parse_warnings", v.logs.json t), ("sequence_num", .optNat v.seq),
      ("updated_by_sequence_num", .optNat v.updatedBySeq),
      ("data_offsets_absolute", .arr (v.dataOffsets.map .nat)), ("state", .name v.cellState.name),
      ("value", content.json),
      ("value_parse_warnings", match warnings with | some l => l.json t | none => .null),
      ("versions", .arr versions)])
/-- The same for a list of values. -/
def valuesJson (t : JsonTexts) (full : Bool) : List Value → Res (List Json)
  | [] => .ok []
  | v :: vs => do
    let j ← valueJson t full v
    let js ← valuesJson t full vs
    .ok (j :: js)
end

/-- `CellKeyNode`, /repo/src/cell_key_node.rs lines 95-118: versions and deleted keys are skipped. -/
def keyJson (t : JsonTexts) (full : Bool) (n : Node) : Res Json := do
  let values ← valuesJson t full n.key.values
  .ok (.obj [("file_offset_absolute", .nat n.key.fileOffset),
    ("detail", detailJson full (keyDetail t full n.key)), ("key_name", .str n.key.name),
    ("path", .str n.key.path), ("cell_state", .name n.key.cellState.name),
    ("sequence_num", .optNat n.key.seq), ("updated_by_sequence_num", .optNat n.key.updatedBySeq),
    ("sub_values", .arr values), ("logs", n.key.logs.json t)])

/-- `write`, /repo/bin/reg_dump/json_writer.rs lines 30-47, on the keys the iterator yields: the
records. -/
def writeJson (t : JsonTexts) (full : Bool) : List Node → Res (List Str)
  | [] => .ok []
  | n :: ns => do
    let j ← keyJson t full n
    let rs ← writeJson t full ns
    .ok (j.text :: rs)

end Notatin
