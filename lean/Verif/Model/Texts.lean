import Verif.Model.Time
import Verif.Model.Xlsx
import Verif.Model.Json

/-!
The texts of flags, types, contents and logs in the exports.  `Debug` of flags is that of the
`bitflags` crate, `Debug` of texts that of the standard library (third-party code, not in the
repository); both are written out as documented.  Left as parameters: which characters `Debug`
prints as they are, and the texts of log entries.
-/

namespace Notatin

/-- The flags of `KeyNodeFlags` in the order of declaration, /repo/src/cell_key_node.rs lines 829-856. -/
def keyNodeFlagTable : List (Nat × String) :=
  [(0x0001, "KEY_VOLATILE"), (0x0002, "KEY_HIVE_EXIT"), (0x0004, "KEY_HIVE_ENTRY"), (0x0008, "KEY_NO_DELETE"),
   (0x0010, "KEY_SYM_LINK"), (0x0020, "KEY_COMP_NAME"), (0x0040, "KEY_PREDEF_HANDLE"),
   (0x0080, "KEY_VIRTUAL_SOURCE"), (0x0100, "KEY_VIRTUAL_TARGET"), (0x0200, "KEY_VIRTUAL_STORE"),
   (0x1000, "KEY_UNKNOWN1"), (0x4000, "KEY_UNKNOWN2")]

/-- The flags of `AccessFlags`, /repo/src/cell_key_node.rs lines 816-825. -/
def accessFlagTable : List (Nat × String) :=
  [(0x1, "ACCESSED_BEFORE_INIT"), (0x2, "ACCESSED_AFTER_INIT")]

/-- The flags of `CellKeyValueFlags`, /repo/src/cell_key_value.rs lines 210-216. -/
def keyValueFlagTable : List (Nat × String) :=
  [(1, "VALUE_COMP_NAME_ASCII"), (2, "IS_TOMBSTONE")]

/-- The texts with ` | ` between them. -/
def joinBars : List Str → Str
  | [] => []
  | [s] => s
  | s :: t :: ss => s ++ ' ' :: '|' :: ' ' :: joinBars (t :: ss)

/-- `{:?}` of a type with flags: its name and in brackets the names of the flags it has, or `0x0`.
Simplified: bits without a name do not occur, they were removed before (`fromBitsChecked`,
`keyValueFlags`). -/
def flagsDebug (type : String) (table : List (Nat × String)) (bits : Nat) : Str :=
  type.toList ++ '(' :: (if bits = 0 then "0x0".toList
    else joinBars ((table.filter fun f => containsFlag bits f.1).map fun f => f.2.toList)) ++ [')']

/-- `format!("{:?}", key.key_node_flags(&mut logs))`, /repo/bin/reg_dump/tsv_writer.rs line 107,
/repo/bin/reg_dump/xlsx_writer.rs line 200, /repo/src/field_serializers.rs line 51, with `key_node_flags`,
/repo/src/cell_key_node.rs lines 267-269. -/
def keyFlagsText (k : KeyNode) : Str :=
  flagsDebug "KeyNodeFlags" keyNodeFlagTable (fromBitsChecked keyNodeFlagsMask k.flagBits {}).1

/-- `format!("{:?}", key.access_flags(&mut logs))`, /repo/bin/reg_dump/tsv_writer.rs line 108,
/repo/bin/reg_dump/xlsx_writer.rs line 204, /repo/src/field_serializers.rs line 66, with `access_flags`,
/repo/src/cell_key_node.rs lines 271-273. -/
def keyAccessText (k : KeyNode) : Str :=
  flagsDebug "AccessFlags" accessFlagTable (fromBitsChecked accessFlagsMask k.accessBits {}).1

/-- `CellKeyValueFlags` in JSON, /repo/src/macros.rs lines 18-30. -/
def valueFlagsText (flags : Nat) : Str := flagsDebug "CellKeyValueFlags" keyValueFlagTable flags

/-- `CellValue::get_type`, /repo/src/cell_value.rs lines 38-42. -/
def CellValue.typeText : CellValue → Str
  | .None => "None".toList
  | .Binary _ => "Binary".toList
  | .String _ => "String".toList
  | .MultiString _ => "MultiString".toList
  | .U32 _ => "U32".toList
  | .I32 _ => "I32".toList
  | .U64 _ => "U64".toList
  | .I64 _ => "I64".toList
  | .Error => "Error".toList

/-- `{:?}` of a character in a text.  `printed` tells which characters are printed as they are. -/
def debugChar (printed : Char → Bool) (c : Char) : Str :=
  if c.toNat = 0 then ['\\', '0']
  else if c = '\t' then ['\\', 't']
  else if c = '\r' then ['\\', 'r']
  else if c = '\n' then ['\\', 'n']
  else if c = '"' then ['\\', '"']
  else if c = '\\' then ['\\', '\\']
  else if printed c then [c]
  else '\\' :: 'u' :: '{' :: Nat.toDigits 16 c.toNat ++ ['}']

/-- `{:?}` of a text. -/
def debugStr (printed : Char → Bool) (s : Str) : Str := '"' :: s.flatMap (debugChar printed) ++ ['"']

/-- The texts with `, ` between them. -/
def joinCommas : List Str → Str
  | [] => []
  | [s] => s
  | s :: t :: ss => s ++ ',' :: ' ' :: joinCommas (t :: ss)

/-- `{:?}` of a list of texts, /repo/src/cell_value.rs line 50. -/
def debugList (printed : Char → Bool) (m : List Str) : Str :=
  '[' :: joinCommas (m.map (debugStr printed)) ++ [']']

/-- `value.get_content().0`, /repo/src/cell_key_value.rs lines 267-282 (it never panics:
`valueContent_ok` in Props/Rows). -/
def valueContent (v : Value) : CellValue :=
  match getContent v.val.dataType v.val.valueBytes with
  | .ok (c, _) => c
  | _ => .Error

/-- The entries of a log from the `i`-th on as `Logs::get_string` writes them, /repo/src/log.rs lines 87-95. -/
def logEntriesText (text : Nat → Str) : Nat → List LogCode → Str
  | _, [] => []
  | i, c :: cs => c.name.toList ++ ' ' :: text i ++ ';' :: logEntriesText text (i + 1) cs

/-- `Logs::get_string`, `Display` of `Logs`, /repo/src/log.rs lines 87-102. -/
def Logs.getString (text : Logs → Nat → Str) (l : Logs) : Str :=
  match l.logs with
  | none => []
  | some cs => logEntriesText (text l) 0 cs

/-- What remains a parameter of the exports: the characters printed as they are, and the texts of
log entries. -/
structure Prints where
  printed : Char → Bool
  logText : Logs → Nat → Str
  flagLog : Nat → Str

/-- The texts of the TSV export, /repo/bin/reg_dump/tsv_writer.rs lines 65-128. -/
def Prints.tsv (u : Prints) : TsvTexts where
  time := keyTime
  flags := keyFlagsText
  access := keyAccessText
  data v := (valueContent v).display (debugList u.printed)
  type v := (valueContent v).typeText
  logs := Logs.getString u.logText

/-- The texts of the spreadsheet, /repo/bin/reg_dump/xlsx_writer.rs lines 151-330. -/
def Prints.xlsx (u : Prints) : XlsxTexts where
  time := keyTime
  flags := keyFlagsText
  access := keyAccessText
  content := valueContent
  dbg := debugList u.printed
  type v := (valueContent v).typeText
  logs := Logs.getString u.logText

/-- The texts of the JSONL export, /repo/src/field_serializers.rs lines 30-71. -/
def Prints.json (u : Prints) : JsonTexts where
  time := keyTime
  flags := keyFlagsText
  access := keyAccessText
  flagLog := u.flagLog
  valueFlags := valueFlagsText
  logText := u.logText

end Notatin
