import Verif.Model.Json
import Verif.Spec.Text
import Verif.Spec.Diff
import Verif.Spec.Lists
import Verif.Spec.Writers
import Verif.Spec.Cells
/-
Reading JSON (RFC 8259), and what the JSON of a key should show.

The reader takes a part of JSON only: no white space, no fractions and exponents, no `true` and
`false`, and no escaped surrogates.  What it takes it reads as the RFC says.
-/
namespace Notatin.Spec

/-- Value of a hexadecimal digit. -/
def hexDigitVal (c : Char) : Option Nat :=
  if '0' ≤ c ∧ c ≤ '9' then some (c.toNat - 48)
  else if 'A' ≤ c ∧ c ≤ 'F' then some (c.toNat - 55)
  else if 'a' ≤ c ∧ c ≤ 'f' then some (c.toNat - 87)
  else none

/-- The character that four hexadecimal digits denote, except for surrogates. -/
def readCode (a b c d : Char) : Option Char :=
  match hexDigitVal a, hexDigitVal b, hexDigitVal c, hexDigitVal d with
  | some a, some b, some c, some d =>
    let n := 4096 * a + 256 * b + 16 * c + d
    if n < 0xD800 ∨ 0xDFFF < n then some (Char.ofNat n) else none
  | _, _, _, _ => none

/-- The character an escape of one letter denotes. -/
def readEscape (c : Char) : Option Char :=
  if c = '"' ∨ c = '\\' ∨ c = '/' then some c
  else if c = 'b' then some (Char.ofNat 8)
  else if c = 't' then some (Char.ofNat 9)
  else if c = 'n' then some (Char.ofNat 10)
  else if c = 'f' then some (Char.ofNat 12)
  else if c = 'r' then some (Char.ofNat 13)
  else none

/-- A string after its opening quote, and what follows the closing one. -/
def readJsonString : Str → Option (Str × Str)
  | [] => none
  | '"' :: s => some ([], s)
  | '\\' :: 'u' :: a :: b :: c :: d :: s =>
    match readCode a b c d, readJsonString s with
    | some x, some (t, r) => some (x :: t, r)
    | _, _ => none
  | '\\' :: c :: s =>
    match readEscape c, readJsonString s with
    | some x, some (t, r) => some (x :: t, r)
    | _, _ => none
  | c :: s =>
    if c.toNat < 32 then none
    else (readJsonString s).map fun (t, r) => (c :: t, r)

/-- Digits, without a leading zero. -/
def readDigits (s : Str) : Option (Nat × Str) :=
  let ds := s.takeWhile Char.isDigit
  if ds = [] ∨ (ds.head? = some '0' ∧ ds ≠ ['0']) then none
  else some (ds.foldl (fun v c => 10 * v + (c.toNat - '0'.toNat)) 0, s.dropWhile Char.isDigit)

mutual
/-- A value, and what follows it. -/
def readJsonValue : Nat → Str → Option (Json × Str)
  | 0, _ => none
  | fuel + 1, s =>
    match s with
    | 'n' :: 'u' :: 'l' :: 'l' :: r => some (.null, r)
    | '"' :: r => (readJsonString r).map fun (t, r) => (.str t, r)
    | '[' :: ']' :: r => some (.arr [], r)
    | '[' :: r => (readJsonItems fuel r).map fun (xs, r) => (.arr xs, r)
    | '{' :: '}' :: r => some (.obj [], r)
    | '{' :: r => (readJsonFields fuel r).map fun (fs, r) => (.obj fs, r)
    | '-' :: r => (readDigits r).map fun (n, r) => (.num (-n), r)
    | r => (readDigits r).map fun (n, r) => (.num n, r)
/-- The elements of an array up to its end, at least one. -/
def readJsonItems : Nat → Str → Option (List Json × Str)
  | 0, _ => none
  | fuel + 1, s =>
    match readJsonValue fuel s with
    | some (x, ',' :: r) => (readJsonItems fuel r).map fun (xs, r) => (x :: xs, r)
    | some (x, ']' :: r) => some ([x], r)
    | _ => none
/-- The fields of an object up to its end, at least one. -/
def readJsonFields : Nat → Str → Option (List (String × Json) × Str)
  | 0, _ => none
  | fuel + 1, s =>
    match s with
    | '"' :: r =>
      match readJsonString r with
      | some (n, ':' :: r) =>
        match readJsonValue fuel r with
        | some (x, ',' :: r) => (readJsonFields fuel r).map fun (fs, r) => ((String.ofList n, x) :: fs, r)
        | some (x, '}' :: r) => some ([(String.ofList n, x)], r)
        | _ => none
      | _ => none
    | _ => none
end

/-- The value a text denotes. -/
def readJson (s : Str) : Option Json :=
  match readJsonValue (s.length + 1) s with
  | some (j, []) => some j
  | _ => none

/-- The field of an object with a name: it has to be the only one of that name. -/
def _root_.Notatin.Json.field (j : Json) (name : String) : Option Json :=
  match j with
  | .obj fs =>
    match fs.filter fun f => f.1 = name with
    | [f] => some f.2
    | _ => none
  | _ => none

/-- A field reached through the names of objects within objects. -/
def _root_.Notatin.Json.at (j : Json) : List String → Option Json
  | [] => some j
  | n :: ns => (j.field n).bind fun x => x.at ns

/-- The value is a text. -/
def IsText (j : Option Json) (s : Str) : Prop := j = some (.str s)

/-- The value is a number. -/
def IsNumber (j : Option Json) (i : Int) : Prop := j = some (.num i)

/-- The value is a number, or null. -/
def IsOptional (j : Option Json) (n : Option Nat) : Prop :=
  match n with
  | none => j = some .null
  | some n => IsNumber j n

/-- The value is a list of numbers. -/
def IsNumbers (j : Option Json) (ns : List Nat) : Prop :=
  j = some (.arr (ns.map fun (n : Nat) => Json.num (n : Int)))

/-- The name of a warning. -/
def warningName : LogCode → String
  | .WarningOther => "WarningOther"
  | .WarningNom => "WarningNom"
  | .WarningConversion => "WarningConversion"
  | .WarningContent => "WarningContent"
  | .WarningBigDataContent => "WarningBigDataContent"
  | .WarningUnrecognizedBitflag => "WarningUnrecognizedBitflag"
  | .WarningTransactionLog => "WarningTransactionLog"
  | .WarningIterator => "WarningIterator"
  | .WarningBaseBlock => "WarningBaseBlock"
  | .WarningParse => "WarningParse"
  | .WarningRecovery => "WarningRecovery"
  | .Info => "Info"

/-- The value lists warnings with these codes, or is null in place of an empty list. -/
def IsWarnings (j : Option Json) (codes : List LogCode) : Prop :=
  (j = some .null ∧ codes = []) ∨
  ∃ js, j = some (.arr js) ∧
    Pairwise2 (fun x c => IsText (x.field "code") (warningName c).toList ∧ ∃ s, IsText (x.field "text") s)
      js codes

/-- The names of the data types. -/
def typeNames : List (DataType × String) :=
  [(.REG_NONE, "REG_NONE"), (.REG_SZ, "REG_SZ"),
   (.REG_EXPAND_SZ, "REG_EXPAND_SZ"), (.REG_BIN, "REG_BIN"),
   (.REG_DWORD, "REG_DWORD"), (.REG_DWORD_BIG_ENDIAN, "REG_DWORD_BIG_ENDIAN"),
   (.REG_LINK, "REG_LINK"), (.REG_MULTI_SZ, "REG_MULTI_SZ"),
   (.REG_RESOURCE_LIST, "REG_RESOURCE_LIST"), (.REG_FULL_RESOURCE_DESCRIPTOR, "REG_FULL_RESOURCE_DESCRIPTOR"),
   (.REG_RESOURCE_REQUIREMENTS_LIST, "REG_RESOURCE_REQUIREMENTS_LIST"), (.REG_QWORD, "REG_QWORD"),
   (.REG_FILETIME, "REG_FILETIME"), (.REG_COMPOSITE_UINT8, "REG_COMPOSITE_UINT8"),
   (.REG_COMPOSITE_INT16, "REG_COMPOSITE_INT16"), (.REG_COMPOSITE_UINT16, "REG_COMPOSITE_UINT16"),
   (.REG_COMPOSITE_INT32, "REG_COMPOSITE_INT32"), (.REG_COMPOSITE_UINT32, "REG_COMPOSITE_UINT32"),
   (.REG_COMPOSITE_INT64, "REG_COMPOSITE_INT64"), (.REG_COMPOSITE_UINT64, "REG_COMPOSITE_UINT64"),
   (.REG_COMPOSITE_FLOAT, "REG_COMPOSITE_FLOAT"), (.REG_COMPOSITE_DOUBLE, "REG_COMPOSITE_DOUBLE"),
   (.REG_COMPOSITE_UNICODE_CHAR, "REG_COMPOSITE_UNICODE_CHAR"), (.REG_COMPOSITE_BOOLEAN, "REG_COMPOSITE_BOOLEAN"),
   (.REG_COMPOSITE_UNICODE_STRING, "REG_COMPOSITE_UNICODE_STRING"), (.REG_COMPOSITE_COMPOSITE_VALUE, "REG_COMPOSITE_COMPOSITE_VALUE"),
   (.REG_COMPOSITE_DATE_TIME_OFFSET, "REG_COMPOSITE_DATE_TIME_OFFSET"), (.REG_COMPOSITE_TIME_SPAN, "REG_COMPOSITE_TIME_SPAN"),
   (.REG_COMPOSITE_GUID, "REG_COMPOSITE_GUID"), (.REG_COMPOSITE_UNK_111, "REG_COMPOSITE_UNK_111"),
   (.REG_COMPOSITE_UNK_112, "REG_COMPOSITE_UNK_112"), (.REG_COMPOSITE_UNK_113, "REG_COMPOSITE_UNK_113"),
   (.REG_COMPOSITE_BYTES_ARRAY, "REG_COMPOSITE_BYTES_ARRAY"), (.REG_COMPOSITE_INT16_ARRAY, "REG_COMPOSITE_INT16_ARRAY"),
   (.REG_COMPOSITE_UINT16_ARRAY, "REG_COMPOSITE_UINT16_ARRAY"), (.REG_COMPOSITE_INT32_ARRAY, "REG_COMPOSITE_INT32_ARRAY"),
   (.REG_COMPOSITE_UINT32_ARRAY, "REG_COMPOSITE_UINT32_ARRAY"), (.REG_COMPOSITE_INT64_ARRAY, "REG_COMPOSITE_INT64_ARRAY"),
   (.REG_COMPOSITE_UINT64_ARRAY, "REG_COMPOSITE_UINT64_ARRAY"), (.REG_COMPOSITE_FLOAT_ARRAY, "REG_COMPOSITE_FLOAT_ARRAY"),
   (.REG_COMPOSITE_DOUBLE_ARRAY, "REG_COMPOSITE_DOUBLE_ARRAY"), (.REG_COMPOSITE_UNICODE_CHAR_ARRAY, "REG_COMPOSITE_UNICODE_CHAR_ARRAY"),
   (.REG_COMPOSITE_BOOLEAN_ARRAY, "REG_COMPOSITE_BOOLEAN_ARRAY"), (.REG_COMPOSITE_UNICODE_STRING_ARRAY, "REG_COMPOSITE_UNICODE_STRING_ARRAY"),
   (.REG_UNKNOWN, "REG_UNKNOWN")]

/-- The value is the content: the kind with the content, bytes as hexadecimal numbers. -/
def IsContent (j : Option Json) : CellValue → Prop
  | .None => IsText j "None".toList
  | .Error => IsText j "Error".toList
  | .Binary b => ∃ s, j = some (.obj [("Binary", .str s)]) ∧ readHex s = some b
  | .String s => j = some (.obj [("String", .str s)])
  | .MultiString m => j = some (.obj [("MultiString", .arr (m.map .str))])
  | .U32 n => j = some (.obj [("U32", .num (n : Int))])
  | .U64 n => j = some (.obj [("U64", .num (n : Int))])
  | .I32 i => j = some (.obj [("I32", .num i)])
  | .I64 i => j = some (.obj [("I64", .num i)])

/-- The variant of the detail: with or without the places of the fields. -/
def variant (full : Bool) : String := if full then "Full" else "Light"

/-- The numbers stored in a key cell with their names. -/
def keyNumbers (k : KeyNode) : List (String × Int) :=
  [("size", k.size), ("key_node_flag_bits", k.flagBits), ("last_key_written_date_and_time", k.lastWritten),
   ("access_flag_bits", k.accessBits), ("parent_key_offset_relative", k.parentOffset),
   ("number_of_sub_keys", k.nSubKeys), ("number_of_volatile_sub_keys", k.nVolatileSubKeys),
   ("sub_keys_list_offset_relative", k.subKeysListOffset),
   ("volatile_sub_keys_list_offset_relative", k.volatileListOffset), ("number_of_key_values", k.nValues),
   ("key_values_list_offset_relative", k.valuesListOffset), ("security_key_offset_relative", k.securityOffset),
   ("class_name_offset_relative", k.classNameOffset), ("largest_sub_key_name_size", k.largestSubKeyName),
   ("largest_sub_key_class_name_size", k.largestSubKeyClassName),
   ("largest_value_name_size", k.largestValueName), ("largest_value_data_size", k.largestValueData),
   ("work_var", k.workVar), ("key_name_size", k.nameSize), ("class_name_size", k.classNameSize)]

/-- The numbers stored in a value cell with their names. -/
def valueNumbers (v : KeyValue) : List (String × Int) :=
  [("size", v.size), ("value_name_size", v.nameSize), ("data_size_raw", v.dataSizeRaw),
   ("data_offset_relative", v.dataOffset), ("data_type_raw", v.dataTypeRaw), ("flags_raw", v.flagsRaw),
   ("padding", v.padding)]

mutual
/-- The JSON shows the value with its versions. -/
def ShowsValue (full : Bool) (j : Json) : Value → Prop
  | .mk v vs =>
    IsNumber (j.field "file_offset_absolute") v.fileOffset ∧
    (∀ x ∈ valueNumbers v, IsNumber (j.at ["detail", variant full, x.1, "value"]) x.2) ∧
    IsText (j.at ["detail", variant full, "value_name", "value"]) v.name ∧
    IsNumbers (j.at ["detail", variant full, "slack", "value"]) (v.slack.map UInt8.toNat) ∧
    (∃ s ∈ typeNames.lookup v.dataType, IsText (j.field "data_type") s.toList) ∧
    IsText (j.field "value_name") (if v.name = [] then "(default)".toList else v.name) ∧
    IsWarnings (j.at ["cell_parse_warnings", "logs"]) v.logs.codes ∧
    IsOptional (j.field "sequence_num") v.seq ∧
    IsOptional (j.field "updated_by_sequence_num") v.updatedBySeq ∧
    IsNumbers (j.field "data_offsets_absolute") v.dataOffsets ∧
    IsText (j.field "state") (stateName v.cellState).toList ∧
    (∃ content warnings, getContent v.dataType v.valueBytes = .ok (content, warnings) ∧
      IsContent (j.field "value") content ∧
      (match warnings with
        | none => j.field "value_parse_warnings" = some .null
        | some l => IsWarnings (j.at ["value_parse_warnings", "logs"]) l.codes)) ∧
    ∃ js, j.field "versions" = some (.arr js) ∧ ShowsValues full js vs
/-- The same for a list. -/
def ShowsValues (full : Bool) (js : List Json) : List Value → Prop
  | [] => js = []
  | v :: vs => ∃ j js', js = j :: js' ∧ ShowsValue full j v ∧ ShowsValues full js' vs
end

/-- The JSON shows the key with its values, but not its versions. -/
def ShowsKey (full : Bool) (j : Json) (n : Node) : Prop :=
  IsNumber (j.field "file_offset_absolute") n.key.fileOffset ∧
  (∀ x ∈ keyNumbers n.key, IsNumber (j.at ["detail", variant full, x.1, "value"]) x.2) ∧
  IsNumbers (j.at ["detail", variant full, "slack", "value"]) (n.key.slack.map UInt8.toNat) ∧
  IsText (j.field "key_name") n.key.name ∧ IsText (j.field "path") n.key.path ∧
  IsText (j.field "cell_state") (stateName n.key.cellState).toList ∧
  IsOptional (j.field "sequence_num") n.key.seq ∧
  IsOptional (j.field "updated_by_sequence_num") n.key.updatedBySeq ∧
  IsWarnings (j.at ["logs", "logs"]) n.key.logs.codes ∧
  ∃ js, j.field "sub_values" = some (.arr js) ∧ ShowsValues full js n.key.values

/-! ### Where the fields are -/

/-- The value shown is what the bytes say: a number in little-endian order and two's complement, a text
of one byte per character, or the bytes themselves. -/
def Says (bs : Bytes) : Json → Prop
  | .num i => i % ((256 ^ bs.length : Nat) : Int) = (leNat bs : Int)
  | .str s => s = latin1 bs
  | .arr xs => xs = bs.map fun b => .num (b.toNat : Int)
  | _ => False

/-- The bytes at the place given with a field, counted from `base`. -/
def PlacedAt (buffer : Bytes) (base : Nat) (j : Option Json) (P : Bytes → Json → Prop) : Prop :=
  ∃ x o n v, j = some x ∧ x.field "offset" = some (.num (Int.ofNat o)) ∧ x.field "len" = some (.num (Int.ofNat n)) ∧
    x.field "value" = some v ∧ base + o + n ≤ buffer.length ∧ P (slice buffer (base + o) n) v

/-- The text is the name stored in the bytes, one byte per character or as UTF-16. -/
def SaysName (ascii : Bool) (bs : Bytes) : Json → Prop
  | .str s => (ascii = true → s = latin1 bs) ∧
      (ascii = false → ∀ name, bs = utf16le name → '\x00' ∉ name → s = name)
  | _ => False

/-- The fields of a key. -/
def keyFieldNames : List String :=
  ["size", "signature", "key_node_flag_bits", "last_key_written_date_and_time",
   "access_flag_bits", "parent_key_offset_relative", "number_of_sub_keys", "number_of_volatile_sub_keys",
   "sub_keys_list_offset_relative", "volatile_sub_keys_list_offset_relative", "number_of_key_values",
   "key_values_list_offset_relative", "security_key_offset_relative", "class_name_offset_relative",
   "largest_sub_key_name_size", "largest_sub_key_class_name_size", "largest_value_name_size",
   "largest_value_data_size", "work_var", "key_name_size", "class_name_size", "slack"]

/-- The fields of a value except its name. -/
def valueFieldNames : List String :=
  ["size", "signature", "value_name_size", "data_size_raw", "data_offset_relative",
   "data_type_raw", "flags_raw", "padding", "slack"]

end Notatin.Spec
