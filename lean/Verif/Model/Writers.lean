import Verif.Model.Compare
/-
Model of the writers of `reg_dump`: /repo/bin/reg_dump/common_writer.rs and
/repo/bin/reg_dump/tsv_writer.rs.

What is written is the list of the texts handed to `writeln!`, in order.  Writing never fails.
Parameters stand for the formatted time and the columns of the TSV rows after the index.  The progress display is dropped.
-/
namespace Notatin

/-! ### The common format -/

/-- The eight counters, /repo/bin/reg_dump/common_writer.rs lines 69-76. -/
structure Totals where
  keys : Nat := 0
  values : Nat := 0
  unusedKeys : Nat := 0
  unusedValues : Nat := 0
  deletedKeys : Nat := 0
  deletedValues : Nat := 0
  modifiedKeys : Nat := 0
  modifiedValues : Nat := 0
deriving Repr, DecidableEq

/-- `get_alloc_char`, /repo/bin/reg_dump/common_writer.rs lines 156-163. -/
def allocChar : CellState → Str
  | .DeletedPrimaryFile | .DeletedPrimaryFileSlack => ['U']
  | .DeletedTransactionLog => ['D']
  | .ModifiedTransactionLog => ['M']
  | .Allocated => ['A']

/-- `&path[1..]`: panics unless the first byte is a character. -/
def sliceFrom1 (s : Str) : Res Str :=
  match dropBytes 1 s with
  | some r => .ok r
  | none => .panic

/-- `+= 1` on a `u32`. -/
def countUp (n : Nat) : Res Nat := if n + 1 < 4294967296 then .ok (n + 1) else .panic

/-- The row of a key, /repo/bin/reg_dump/common_writer.rs lines 191-198. -/
def commonKeyRow (time : KeyNode → Str) (n : Node) (path : Str) : Str :=
  "key,".toList ++ allocChar n.key.cellState ++ ",".toList ++ decimal n.key.fileOffset ++
    ",".toList ++ escapeString path ++ ",,,,".toList ++ time n.key

/-- `write_key`, /repo/bin/reg_dump/common_writer.rs lines 165-200. -/
def commonKey (time : KeyNode → Str) (n : Node) (t : Totals) : Res (List Str × Totals) :=
  match n.key.cellState with
  | .DeletedPrimaryFile | .DeletedPrimaryFileSlack =>
    match countUp t.unusedKeys with
    | .ok c => .ok ([commonKeyRow time n n.key.name], { t with unusedKeys := c })
    | _ => .panic
  | .Allocated =>
    match countUp t.keys, sliceFrom1 n.key.path with
    | .ok c, .ok p => .ok ([commonKeyRow time n p], { t with keys := c })
    | _, _ => .panic
  | .DeletedTransactionLog =>
    match countUp t.deletedKeys, sliceFrom1 n.key.path with
    | .ok c, .ok p => .ok ([commonKeyRow time n p], { t with deletedKeys := c })
    | _, _ => .panic
  | .ModifiedTransactionLog =>
    match countUp t.modifiedKeys, sliceFrom1 n.key.path with
    | .ok c, .ok p => .ok ([commonKeyRow time n p], { t with modifiedKeys := c })
    | _, _ => .panic

/-- The row of a value, /repo/bin/reg_dump/common_writer.rs lines 229-238. -/
def commonValueRow (v : Value) (keyName : Str) : Str :=
  "value,".toList ++ allocChar v.val.cellState ++ ",".toList ++ decimal v.val.fileOffset ++
    ",".toList ++ escapeString keyName ++ ",".toList ++ escapeString v.val.prettyName ++
    ",".toList ++ decimal v.val.dataType.number ++ ",".toList ++
    toHexString (v.val.valueBytes.getD []) ++ ",".toList

/-- `write_value`, /repo/bin/reg_dump/common_writer.rs lines 202-240. -/
def commonValue (n : Node) (v : Value) (t : Totals) :
    Res (List Str × Totals) :=
  match v.val.cellState with
  | .DeletedPrimaryFile | .DeletedPrimaryFileSlack =>
    match countUp t.unusedValues with
    | .ok c => .ok ([commonValueRow v []], { t with unusedValues := c })
    | _ => .panic
  | .Allocated =>
    match countUp t.values with
    | .ok c => .ok ([commonValueRow v n.key.name], { t with values := c })
    | _ => .panic
  | .DeletedTransactionLog =>
    match countUp t.deletedValues with
    | .ok c => .ok ([commonValueRow v n.key.name], { t with deletedValues := c })
    | _ => .panic
  | .ModifiedTransactionLog =>
    match countUp t.modifiedValues with
    | .ok c => .ok ([commonValueRow v n.key.name], { t with modifiedValues := c })
    | _ => .panic

/-- A loop that writes: `f` on each item in turn, the records appended. -/
def writeEach {α : Type} (f : α → Totals → Res (List Str × Totals)) :
    List α → Totals → Res (List Str × Totals)
  | [], t => .ok ([], t)
  | a :: as, t =>
    match f a t with
    | .ok (r, t) =>
      match writeEach f as t with
      | .ok (rs, t) => .ok (r ++ rs, t)
      | .err => .err
      | .panic => .panic
    | .err => .err
    | .panic => .panic

/-- A value and its versions, /repo/bin/reg_dump/common_writer.rs lines 104-122. -/
def commonValues (n : Node) (v : Value) (t : Totals) :
    Res (List Str × Totals) :=
  writeEach (commonValue n) (v :: v.versions) t

/-- A key, its versions and its values, /repo/bin/reg_dump/common_writer.rs lines 86-123. -/
def commonItem (time : KeyNode → Str) (n : Node) (t : Totals) :
    Res (List Str × Totals) :=
  match writeEach (commonKey time) (n :: n.versions) t with
  | .ok (r, t) =>
    match writeEach (commonValues n) n.key.values t with
    | .ok (rs, t) => .ok (r ++ rs, t)
    | .err => .err
    | .panic => .panic
  | .err => .err
  | .panic => .panic

/-- The lines of the explanation at the top but the last, /repo/bin/reg_dump/common_writer.rs lines 42-68. -/
def commonHeaderLines : List String := [
  "## Registry common export format",
  "## Key format",
  "## key,Is Free,Absolute offset in decimal,KeyPath,,,,LastWriteTime in UTC",
  "## Value format",
  "## value,Is Free,Absolute offset in decimal,KeyPath,Value name,Data type (as decimal integer),Value data as bytes separated by a singe space,",
  "## \"Is Free\" interpretation: A for in use, U for unused from the primary file, D for deleted from the transaction log, M for modified from the transaction log",
  "##",
  "## Comparison of unused keys/values is done to compare recovery of vk and nk records, not the algorithm used to associate unused keys to other keys and their values.",
  "## When including unused keys, only the recovered key name should be included, not the full path to the unused key.",
  "## When including unused values, do not include the parent key information.",
  "##",
  "## The following totals should also be included",
  "##",
  "## total_keys: total in use key count",
  "## total_values: total in use value count",
  "## total_unused_keys: total free key count (recovered from primary file)",
  "## total_unused_values: total free value count (recovered from primary file)",
  "## total_deleted_from_transaction_log_keys: total deleted key count (recovered from transaction logs)",
  "## total_deleted_from_transaction_log_values: total deleted value count (recovered from transaction logs)",
  "## total_modified_from_transaction_log_keys: total modified key count (recovered from transaction logs)",
  "## total_modified_from_transaction_log_values: total modified value count (recovered from transaction logs)",
  "##",
  "## Before comparison with other common export implementations, the files should be sorted"]

/-- The explanation at the top, /repo/bin/reg_dump/common_writer.rs lines 42-68. -/
def commonHeader : Str := (commonHeaderLines.flatMap fun l => l.toList ++ ['\n']) ++ "##".toList

/-- `write`, /repo/bin/reg_dump/common_writer.rs lines 41-154, on the keys the iterator yields. -/
def writeCommon (time : KeyNode → Str) (ns : List Node) : Res (List Str) :=
  match writeEach (commonItem time) ns {} with
  | .err => .err
  | .panic => .panic
  | .ok (rows, t) =>
    .ok (commonHeader :: rows ++
      ["## total_keys: ".toList ++ decimal t.keys,
       "## total_values: ".toList ++ decimal t.values,
       "## total_unused_keys: ".toList ++ decimal t.unusedKeys,
       "## total_unused_values: ".toList ++ decimal t.unusedValues,
       "## total_deleted_from_transaction_log_keys: ".toList ++ decimal t.deletedKeys,
       "## total_deleted_from_transaction_log_values: ".toList ++ decimal t.deletedValues,
       "## total_modified_from_transaction_log_keys: ".toList ++ decimal t.modifiedKeys,
       "## total_modified_from_transaction_log_values: ".toList ++ decimal t.modifiedValues])

/-! ### TSV -/

/-- `CellKeyValue::has_or_is_recovered`, /repo/src/cell_key_value.rs lines 525-530. -/
def Value.hasOrIsRecovered (v : Value) : Bool :=
  v.val.cellState.isDeleted || v.val.cellState == .ModifiedTransactionLog || !v.versions.isEmpty

/-- `write_value_tsv`, /repo/bin/reg_dump/tsv_writer.rs lines 65-87: the record, if any, and the new
index (`usize`, taken as unbounded).  `cols` are the columns after the index. -/
def tsvValue (cols : Node → Value → Str) (recoveredOnly : Bool) (n : Node) (v : Value) (index : Nat) :
    List Str × Nat :=
  if !recoveredOnly || v.hasOrIsRecovered then
    ([decimal (index + 1) ++ '\t' :: cols n v], index + 1)
  else ([], index)

/-- A loop that writes numbered records. -/
def tsvEach {α : Type} (f : α → Nat → List Str × Nat) : List α → Nat → List Str × Nat
  | [], i => ([], i)
  | a :: as, i =>
    let (r, i) := f a i
    let (rs, i) := tsvEach f as i
    (r ++ rs, i)

/-- A value and its versions, /repo/bin/reg_dump/tsv_writer.rs lines 119-125. -/
def tsvValues (cols : Node → Value → Str) (recoveredOnly : Bool) (n : Node) (v : Value) (index : Nat) :
    List Str × Nat :=
  tsvEach (tsvValue cols recoveredOnly n) (v :: v.versions) index

/-- `write_key_tsv` for a version (`key_modified`), /repo/bin/reg_dump/tsv_writer.rs lines 89-128:
the key and, recursively, its versions; no values. -/
def tsvVersion (cols : KeyNode → Str) (recoveredOnly : Bool) : Node → Nat → List Str × Nat
  | .mk k vs ds, index =>
    if !recoveredOnly || (Node.mk k vs ds).hasOrIsRecovered then
      let (rs, i) := versions vs (index + 1)
      ((decimal (index + 1) ++ '\t' :: cols k) :: rs, i)
    else ([], index)
where
  /-- The loop over the versions, lines 112-114. -/
  versions : List Node → Nat → List Str × Nat
    | [], i => ([], i)
    | v :: vs, i =>
      let (r, i) := tsvVersion cols recoveredOnly v i
      let (rs, i) := versions vs i
      (r ++ rs, i)

/-- `write_key_tsv` for a key, /repo/bin/reg_dump/tsv_writer.rs lines 89-128: the same followed by
the values. -/
def tsvKey (kcols : KeyNode → Str) (vcols : Node → Value → Str) (recoveredOnly : Bool) (n : Node)
    (index : Nat) : List Str × Nat :=
  let (r, i) := tsvVersion kcols recoveredOnly n index
  let (rs, i) := tsvEach (tsvValues vcols recoveredOnly n) n.key.values i
  (r ++ rs, i)

/-- The heading, /repo/bin/reg_dump/tsv_writer.rs line 55. -/
def tsvHeader : Str :=
  "Index\tKey Path\tSubkey Count\tValue Name\tValue Data\tTimestamp\tStatus\tPrevious Seq Num\tModifying Seq Num\tFlags\tAccess Flags\tValue Type\tLogs".toList

/-- `write`, /repo/bin/reg_dump/tsv_writer.rs lines 49-63, on the keys the iterator yields; `logs` is
what `Logs::write` writes. -/
def writeTsv (kcols : KeyNode → Str) (vcols : Node → Value → Str) (recoveredOnly : Bool)
    (logs : List Str) (ns : List Node) : List Str :=
  tsvHeader :: (tsvEach (tsvKey kcols vcols recoveredOnly) ns 0).1 ++ "\nLogs\n-----------".toList :: logs

/-- What the columns of a TSV row show besides path, name, counts and sequence numbers, as
parameters: the time (`util::format_date_time`), both sets of flags (`{:?}`), the data
(`to_string`), its type (`get_type`) and the logs (`to_string`). -/
structure TsvTexts where
  time : KeyNode → Str
  flags : KeyNode → Str
  access : KeyNode → Str
  data : Value → Str
  type : Value → Str
  logs : Logs → Str

/-- `{:?}` of a `CellState`, /repo/src/cell.rs lines 20-29. -/
def statusText : CellState → Str
  | .DeletedTransactionLog => "DeletedTransactionLog".toList
  | .DeletedPrimaryFile => "DeletedPrimaryFile".toList
  | .DeletedPrimaryFileSlack => "DeletedPrimaryFileSlack".toList
  | .Allocated => "Allocated".toList
  | .ModifiedTransactionLog => "ModifiedTransactionLog".toList

/-- `get_sequence_num_string`, /repo/bin/reg_dump/tsv_writer.rs lines 130-135. -/
def seqText : Option Nat → Str
  | some n => decimal n
  | none => []

/-- The columns of a key after the index, /repo/bin/reg_dump/tsv_writer.rs lines 97-110. -/
def tsvKeyCols (t : TsvTexts) (k : KeyNode) : Str :=
  escapeString k.path ++ '\t' :: decimal k.subKeyOffsets.length ++ '\t' :: '\t' :: '\t' :: t.time k ++
    '\t' :: statusText k.cellState ++ '\t' :: seqText k.seq ++ '\t' :: seqText k.updatedBySeq ++
    '\t' :: t.flags k ++ '\t' :: t.access k ++ '\t' :: '\t' :: escapeString (t.logs k.logs)

/-- The columns of a value after the index, /repo/bin/reg_dump/tsv_writer.rs lines 72-84. -/
def tsvValueCols (t : TsvTexts) (n : Node) (v : Value) : Str :=
  escapeString n.key.path ++ '\t' :: '\t' :: escapeString v.val.prettyName ++ '\t' :: escapeString (t.data v) ++
    '\t' :: '\t' :: statusText v.val.cellState ++ '\t' :: seqText v.val.seq ++
    '\t' :: seqText v.val.updatedBySeq ++ '\t' :: '\t' :: '\t' :: t.type v ++ '\t' :: escapeString (t.logs v.val.logs)

/-- The text of the file: every record with a line feed. -/
def fileText (records : List Str) : Str := records.flatMap writeLn

end Notatin
