import Verif.Spec.Text
import Verif.Spec.Json
import Verif.Spec.Time
import Verif.Spec.Xlsx
import Verif.Model.CellValue

/-!
How the texts of flags and of the data of values are read.
-/

namespace Notatin.Spec

/-- The flags of keys: the bit and the name in the documentation of the format. -/
def keyFlagNames : List (Nat × String) :=
  [(0, "KEY_VOLATILE"), (1, "KEY_HIVE_EXIT"), (2, "KEY_HIVE_ENTRY"), (3, "KEY_NO_DELETE"), (4, "KEY_SYM_LINK"),
   (5, "KEY_COMP_NAME"), (6, "KEY_PREDEF_HANDLE"), (7, "KEY_VIRTUAL_SOURCE"), (8, "KEY_VIRTUAL_TARGET"),
   (9, "KEY_VIRTUAL_STORE"), (12, "KEY_UNKNOWN1"), (14, "KEY_UNKNOWN2")]

/-- The access flags. -/
def accessFlagNames : List (Nat × String) := [(0, "ACCESSED_BEFORE_INIT"), (1, "ACCESSED_AFTER_INIT")]

/-- The flags of values. -/
def valueFlagNames : List (Nat × String) := [(0, "VALUE_COMP_NAME_ASCII"), (1, "IS_TOMBSTONE")]

/-- The words between the bars: what comes before the next blank, bar and blank, or all of it. -/
def splitBars : Str → List Str
  | [] => [[]]
  | c :: s =>
    if c = ' ' ∧ s.take 2 = ['|', ' '] then [] :: splitBars (s.drop 2)
    else match splitBars s with
      | [] => [[c]]
      | w :: ws => (c :: w) :: ws
termination_by s => s.length

/-- The names of flags in `Type(A | B)`; `Type(0x0)` has none. -/
def readFlags (type : String) (s : Str) : Option (List Str) :=
  if type.toList ++ ['('] <+: s ∧ s.getLast? = some ')' then
    let inside := (s.drop (type.toList.length + 1)).dropLast
    if inside = "0x0".toList then some [] else some (splitBars inside)
  else none

/-- The text names the flags of the table whose bits are set, in order, and no others. -/
def NamesFlags (type : String) (table : List (Nat × String)) (bits : Nat) (s : Str) : Prop :=
  readFlags type s = some ((table.filter fun f => bits.testBit f.1).map fun f => f.2.toList)

/-- A text in quotes after its first quote, and what follows it. -/
def readDebug : Str → Option (Str × Str)
  | [] => none
  | '"' :: r => some ([], r)
  | '\\' :: '0' :: s => (readDebug s).map fun (t, r) => ('\x00' :: t, r)
  | '\\' :: 't' :: s => (readDebug s).map fun (t, r) => ('\t' :: t, r)
  | '\\' :: 'r' :: s => (readDebug s).map fun (t, r) => ('\r' :: t, r)
  | '\\' :: 'n' :: s => (readDebug s).map fun (t, r) => ('\n' :: t, r)
  | '\\' :: '"' :: s => (readDebug s).map fun (t, r) => ('"' :: t, r)
  | '\\' :: '\\' :: s => (readDebug s).map fun (t, r) => ('\\' :: t, r)
  | '\\' :: 'u' :: '{' :: s =>
    (readDebug ((s.dropWhile (· ≠ '}')).drop 1)).map fun (t, r) =>
      (Char.ofNat ((s.takeWhile (· ≠ '}')).foldl (fun v c => 16 * v + (hexDigitVal c).getD 0) 0) :: t, r)
  | '\\' :: _ => none
  | c :: s => (readDebug s).map fun (t, r) => (c :: t, r)
termination_by s => s.length
decreasing_by
  all_goals simp only [List.length_cons]
  all_goals first
    | omega
    | (have := (List.dropWhile_suffix (p := fun x : Char => decide (x ≠ '}')) (l := s)).length_le
       simp only [List.length_drop]
       omega)

/-- Texts in quotes with a comma and a blank between them, up to the closing bracket. -/
def readTexts : Nat → Str → Option (List Str)
  | 0, _ => none
  | fuel + 1, s =>
    match s with
    | '"' :: s =>
      match readDebug s with
      | some (t, [']']) => some [t]
      | some (t, ',' :: ' ' :: r) => (readTexts fuel r).map (t :: ·)
      | _ => none
    | _ => none

/-- A list of texts in brackets. -/
def readTextList (s : Str) : Option (List Str) :=
  match s with
  | ['[', ']'] => some []
  | '[' :: r => readTexts s.length r
  | _ => none

/-- A number with all its digits. -/
def readNumber (s : Str) : Option Nat :=
  match readDigits s with
  | some (n, []) => some n
  | _ => none

/-- A number that may have a sign. -/
def readSigned : Str → Option Int
  | '-' :: s => (readNumber s).map fun n => -(n : Int)
  | s => (readNumber s).map Int.ofNat

/-- The content that the data and the type of a row stand for. -/
def readContent (type data : Str) : Option CellValue :=
  if type = "None".toList ∧ data = [] then some .None
  else if type = "Error".toList ∧ data = [] then some .Error
  else if type = "Binary".toList then (readHex data).map .Binary
  else if type = "String".toList then some (.String data)
  else if type = "MultiString".toList then (readTextList data).map .MultiString
  else if type = "U32".toList then (readNumber data).map .U32
  else if type = "U64".toList then (readNumber data).map .U64
  else if type = "I32".toList then (readSigned data).map .I32
  else if type = "I64".toList then (readSigned data).map .I64
  else none

/-! ### Rows -/

/-- The cell of the row in the column with this heading. -/
def column (row : List Str) (name : String) : Option Str := row[tsvColumns.idxOf name.toList]?

/-- The times that have to be told right. -/
abbrev TimeRange := Nat → Prop

/-- The row says what is stored: for a key its path, the number of its sub-keys, when it was written, its
state and its flags; for a value the path of its key, its name, its state and its content; for both the numbers of
the log entries that made and that changed it, if there are any. -/
def RowTells (times : TimeRange) (row : List Str) : ExportItem → Prop
  | .key n =>
    column row "Key Path" = some n.key.path ∧
    column row "Subkey Count" = some (Nat.toDigits 10 n.key.subKeyOffsets.length) ∧
    (∃ s, column row "Timestamp" = some s ∧ (times n.key.lastWritten → Tells s n.key.lastWritten)) ∧
    column row "Status" = some (stateName n.key.cellState).toList ∧
    (∃ s, column row "Flags" = some s ∧ NamesFlags "KeyNodeFlags" keyFlagNames n.key.flagBits s) ∧
    (∃ s, column row "Access Flags" = some s ∧ NamesFlags "AccessFlags" accessFlagNames n.key.accessBits s) ∧
    column row "Value Name" = some [] ∧ column row "Value Data" = some [] ∧ column row "Value Type" = some [] ∧
    column row "Previous Seq Num" = some (numberText n.key.seq) ∧
    column row "Modifying Seq Num" = some (numberText n.key.updatedBySeq)
  | .value n v =>
    column row "Key Path" = some n.key.path ∧
    column row "Value Name" = some (if v.val.name = [] then "(default)".toList else v.val.name) ∧
    (∃ type data content warnings, column row "Value Type" = some type ∧ column row "Value Data" = some data ∧
      getContent v.val.dataType v.val.valueBytes = .ok (content, warnings) ∧
      readContent type data = some content) ∧
    column row "Status" = some (stateName v.val.cellState).toList ∧
    column row "Timestamp" = some [] ∧ column row "Flags" = some [] ∧ column row "Access Flags" = some [] ∧
    column row "Previous Seq Num" = some (numberText v.val.seq) ∧
    column row "Modifying Seq Num" = some (numberText v.val.updatedBySeq)

end Notatin.Spec
