import Verif.Model.Writers
import Verif.Spec.Text
import Verif.Spec.Diff
import Verif.Spec.Lists
/-
What the exports should contain, in terms of the list of keys and of the records written.
-/
namespace Notatin.Spec

/-- All keys of a listing with their versions. -/
def keyItems (ns : List Node) : List Node := ns.flatMap fun n => n :: n.versions

/-- All values of a listing with their versions. -/
def valueItems (ns : List Node) : List Value :=
  ns.flatMap fun n => n.key.values.flatMap fun v => v :: v.versions

/-- The flag for a state: in use, unused (recovered from the primary file), deleted or modified in
the transaction logs. -/
def flagOf : CellState → Char
  | .Allocated => 'A'
  | .DeletedPrimaryFile => 'U'
  | .DeletedPrimaryFileSlack => 'U'
  | .DeletedTransactionLog => 'D'
  | .ModifiedTransactionLog => 'M'

/-- The number of rows of a kind (`key` or `value`) with a flag. -/
def rowCount (rows : List Str) (kind : String) (flag : Char) : Nat :=
  rows.countP fun r => (kind.toList ++ [',', flag, ',']).isPrefixOf r

/-- The records are a heading, rows and totals, and each total is the number of the rows of its kind
and flag. -/
def TotalsMatch (header : Str) (rows records : List Str) : Prop :=
  ∃ n1 n2 n3 n4 n5 n6 n7 n8 : Str,
    records = header :: (rows ++
      ["## total_keys: ".toList ++ n1,
       "## total_values: ".toList ++ n2,
       "## total_unused_keys: ".toList ++ n3,
       "## total_unused_values: ".toList ++ n4,
       "## total_deleted_from_transaction_log_keys: ".toList ++ n5,
       "## total_deleted_from_transaction_log_values: ".toList ++ n6,
       "## total_modified_from_transaction_log_keys: ".toList ++ n7,
       "## total_modified_from_transaction_log_values: ".toList ++ n8]) ∧
    Number n1 (rowCount rows "key" 'A') ∧ Number n2 (rowCount rows "value" 'A') ∧
    Number n3 (rowCount rows "key" 'U') ∧ Number n4 (rowCount rows "value" 'U') ∧
    Number n5 (rowCount rows "key" 'D') ∧ Number n6 (rowCount rows "value" 'D') ∧
    Number n7 (rowCount rows "key" 'M') ∧ Number n8 (rowCount rows "value" 'M')

/-! ### TSV -/

/-- What a row of the TSV export shows: a key (or a version of one), or a value (or a version of one)
of a key. -/
inductive ExportItem where
  | key (n : Node)
  | value (n : Node) (v : Value)

mutual
/-- A key and its versions, each followed by its own versions. -/
def withVersions : Node → List ExportItem
  | .mk k vs ds => .key (.mk k vs ds) :: withVersionsAll vs
/-- The same for a list of keys. -/
def withVersionsAll : List Node → List ExportItem
  | [] => []
  | v :: vs => withVersions v ++ withVersionsAll vs
end

/-- All items of a listing in the order in which they are exported. -/
def allItems (ns : List Node) : List ExportItem :=
  ns.flatMap fun n => withVersions n ++
    n.key.values.flatMap fun v => (v :: v.versions).map (.value n)

/-- Whether a state is that of a recovered item. -/
def recoveredState : CellState → Bool
  | .Allocated => false
  | .DeletedPrimaryFile | .DeletedPrimaryFileSlack | .DeletedTransactionLog
  | .ModifiedTransactionLog => true

/-- Whether the item was recovered, or has older versions. -/
def ExportItem.recovered : ExportItem → Bool
  | .key n => recoveredState n.key.cellState || !n.versions.isEmpty
  | .value _ v => recoveredState v.val.cellState || !v.versions.isEmpty

/-- Rows with the given texts numbered from `i` on. -/
def numbered : Nat → List Str → List Str
  | _, [] => []
  | i, r :: rs => (Nat.toDigits 10 i ++ '\t' :: r) :: numbered (i + 1) rs

/-! ### Reading a table with tabs or commas between the fields -/

/-- The characters up to the next separator or line feed. -/
def readBareCell (sep : Char) : Str → Str × Str
  | [] => ([], [])
  | c :: s =>
    if c = sep ∨ c = '\n' then ([], c :: s)
    else ((c :: (readBareCell sep s).1), (readBareCell sep s).2)

/-- One field: quoted, where two quotes stand for one, or bare. -/
def readCell (sep : Char) : Str → Option (Str × Str)
  | '"' :: rest => readQuoted rest
  | s => some (readBareCell sep s)

/-- A record of `n + 1` fields, ended by a line feed. -/
def readRecord (sep : Char) : Nat → Str → Option (List Str × Str)
  | 0, s =>
    match readCell sep s with
    | some (f, '\n' :: rest) => some ([f], rest)
    | _ => none
  | n + 1, s =>
    match readCell sep s with
    | some (f, c :: rest) =>
      if c = sep then (readRecord sep n rest).map fun (fs, r) => (f :: fs, r) else none
    | _ => none

/-- `m` records of `n + 1` fields. -/
def readRecords (sep : Char) (n : Nat) : Nat → Str → Option (List (List Str) × Str)
  | 0, s => some ([], s)
  | m + 1, s =>
    match readRecord sep n s with
    | some (r, rest) => (readRecords sep n m rest).map fun (rs, s) => (r :: rs, s)
    | none => none

/-- The names of the columns. -/
def tsvColumns : List Str :=
  ["Index", "Key Path", "Subkey Count", "Value Name", "Value Data", "Timestamp", "Status",
   "Previous Seq Num", "Modifying Seq Num", "Flags", "Access Flags", "Value Type", "Logs"].map String.toList

/-- The name of a state. -/
def stateName : CellState → String
  | .Allocated => "Allocated"
  | .DeletedPrimaryFile => "DeletedPrimaryFile"
  | .DeletedPrimaryFileSlack => "DeletedPrimaryFileSlack"
  | .DeletedTransactionLog => "DeletedTransactionLog"
  | .ModifiedTransactionLog => "ModifiedTransactionLog"

/-- A number, if there is one. -/
def numberText (n : Option Nat) : Str := (n.map (Nat.toDigits 10)).getD []

/-- What the columns after the index show for an item. -/
def ExportItem.fields (t : TsvTexts) : ExportItem → List Str
  | .key n => [n.key.path, Nat.toDigits 10 n.key.subKeyOffsets.length, [], [], t.time n.key,
      (stateName n.key.cellState).toList, numberText n.key.seq, numberText n.key.updatedBySeq,
      t.flags n.key, t.access n.key, [], t.logs n.key.logs]
  | .value n v => [n.key.path, [], if v.val.name = [] then "(default)".toList else v.val.name, t.data v, [],
      (stateName v.val.cellState).toList, numberText v.val.seq, numberText v.val.updatedBySeq,
      [], [], t.type v, t.logs v.val.logs]

/-- The records of the items, numbered from `i` on. -/
def itemRecords (t : TsvTexts) : Nat → List ExportItem → List (List Str)
  | _, [] => []
  | i, x :: xs => (Nat.toDigits 10 i :: x.fields t) :: itemRecords t (i + 1) xs

/-! ### The common format -/

/-- All items of a listing in the order of the common export: a key, its versions, its values each with
its versions. -/
def commonItems (ns : List Node) : List ExportItem :=
  ns.flatMap fun n => (n :: n.versions).map .key ++
    n.key.values.flatMap fun v => (v :: v.versions).map (.value n)

/-- Whether the item is unused space of the primary file. -/
def unusedState : CellState → Bool
  | .DeletedPrimaryFile | .DeletedPrimaryFileSlack => true
  | .Allocated | .DeletedTransactionLog | .ModifiedTransactionLog => false

/-- What the heading of the export documents:
key,Is Free,Absolute offset in decimal,KeyPath,,,,LastWriteTime in UTC
value,Is Free,Absolute offset in decimal,KeyPath,Value name,Data type (as decimal integer),Value data as
bytes separated by a singe space,
For unused keys the path is only the name; for unused values it is empty.  `parent` is what stands for the
path of the key of a value, `known` the data types whose numbers are claimed to be right. -/
def ShowsCommon (time : KeyNode → Str) (parent : Node → Str) (known : Nat → Bool) (record : List Str) :
    ExportItem → Prop
  | .key n =>
    record = ["key".toList, [flagOf n.key.cellState], Nat.toDigits 10 n.key.fileOffset,
      if unusedState n.key.cellState then n.key.name else n.key.path.drop 1, [], [], [], time n.key]
  | .value n v =>
    ∃ type hex : Str,
      record = ["value".toList, [flagOf v.val.cellState], Nat.toDigits 10 v.val.fileOffset,
        if unusedState v.val.cellState then [] else parent n,
        if v.val.name = [] then "(default)".toList else v.val.name, type, hex, []] ∧
      (known v.val.dataTypeRaw = true → v.val.dataType = DataType.ofRaw v.val.dataTypeRaw →
        type = Nat.toDigits 10 v.val.dataTypeRaw) ∧
      readHex hex = some (v.val.valueBytes.getD [])

/-- The path of a key without its first backslash. -/
def keyPath (n : Node) : Str := n.key.path.drop 1

/-- The data types of the registry: `REG_NONE` to `REG_QWORD`, and those of settings files. -/
def documentedType (n : Nat) : Bool := n ≤ 11 || n == 16 || (0x101 ≤ n && n ≤ 0x11F)

/-- The text after the comment lines at its beginning. -/
def afterComments (text : Str) : Str :=
  ((lines text).dropWhile (['#', '#'].isPrefixOf ·)).flatMap (· ++ ['\n'])

/-- The text of the export reads as the heading says: after the comments at the beginning, one record of
eight fields per item, and then comments (the totals). -/
def CommonReadsBack (time : KeyNode → Str) (parent : Node → Str) (known : Nat → Bool) (ns : List Node)
    (text : Str) : Prop :=
  ∃ recs rest, readRecords ',' 7 (commonItems ns).length (afterComments text) = some (recs, rest) ∧
    Pairwise2 (ShowsCommon time parent known) recs (commonItems ns) ∧
    ∀ l ∈ lines rest, ['#', '#'] <+: l

end Notatin.Spec
