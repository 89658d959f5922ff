import Verif.Model.Dump
import Verif.Spec.Dump
import Verif.Spec.Overwritten
/-
What a table with recovered items says about the history of a hive: the spec speaks of the states of the hive and
of the cells of the rows.
-/
namespace Notatin.Spec
open Notatin

/-- The state of the item of a row. -/
def status (row : List Str) : Str := (column row "Status").getD []

/-- The row says the key `u` with this path and state: when it was written and its flags. -/
def RowOfKey (times : TimeRange) (row : List Str) (path : Str) (u : Tree) (state : String) : Prop :=
  column row "Key Path" = some path ∧
  (∃ s, column row "Timestamp" = some s ∧ (times u.cell.lastWritten → Tells s u.cell.lastWritten)) ∧
  column row "Status" = some state.toList ∧
  (∃ s, column row "Flags" = some s ∧ NamesFlags "KeyNodeFlags" keyFlagNames u.cell.flags s) ∧
  (∃ s, column row "Access Flags" = some s ∧ NamesFlags "AccessFlags" accessFlagNames u.cell.access s) ∧
  column row "Value Name" = some [] ∧ column row "Value Data" = some [] ∧ column row "Value Type" = some []

/-- The row says the value `x` of the key with this path: its name, type, content and state. -/
def RowOfValue (row : List Str) (path : Str) (x : Val) (state : String) : Prop :=
  column row "Key Path" = some path ∧ column row "Value Name" = some (shownName x.name) ∧
  (∃ type data c, column row "Value Type" = some type ∧ column row "Value Data" = some data ∧
    readContent type data = some c ∧ ContentOf x.type x.data c) ∧
  column row "Status" = some state.toList

/-- The row tells the entries that made and that changed its item. -/
def RowNumbers (row : List Str) (made changed : Nat) : Prop :=
  column row "Previous Seq Num" = some (Nat.toDigits 10 made) ∧
  column row "Modifying Seq Num" = some (Nat.toDigits 10 changed)

/-- The row says the lost key as last stored, and the number of the entry that took it away. -/
def SaysLost (times : TimeRange) (a b : FileState) (key : Nat × Str) (row : List Str) : Prop :=
  (∃ u ∈ a.tree.nodes, u.off = key.1 ∧ RowOfKey times row key.2 u "DeletedTransactionLog") ∧
  column row "Modifying Seq Num" = some (Nat.toDigits 10 b.seq)

/-- The row says the key as the entry found it. -/
def SaysOldKey (times : TimeRange) (path : Str) (e : Event) (row : List Str) : Prop :=
  (∃ u, e.was (path, none) = some (.inl u) ∧ RowOfKey times row path u "ModifiedTransactionLog") ∧
  RowNumbers row (since (path, none) e.1) e.2.seq

/-- The row says the value as the entry found it. -/
def SaysOldValue (path name : Str) (state : String) (e : Event) (row : List Str) : Prop :=
  (∃ y, e.was (path, some name) = some (.inr y) ∧ y.val.name = name ∧ RowOfValue row path y.val state) ∧
  RowNumbers row (since (path, some name) e.1) e.2.seq

/-- A key with this path is listed: it is still there, or a key above it other than the root is. -/
def Reached (last : FileState) (path : Str) : Prop :=
  path ≠ '\\' :: last.tree.name ∧ (path ∈ last.paths ∨ BelowSurvivor last path)

/-- A row about the past: a lost key, former contents of a key or of a value, or a removed value. -/
def PastRow (times : TimeRange) (a : FullState) (later : List FullState) (last : FullState) (row : List Str) : Prop :=
  (∃ q ∈ steps ((a :: later).map FullState.plain), ∃ key, Lost q.1 q.2 key ∧ BelowSurvivor last.plain key.2 ∧
    SaysLost times q.1 q.2 key row) ∨
  (∃ e ∈ events (a :: later).reverse, ∃ path, e.changes (path, none) ∧ SaysOldKey times path e row) ∨
  (∃ e ∈ events (a :: later).reverse, ∃ path name, e.changes (path, some name) ∧
    SaysOldValue path name "ModifiedTransactionLog" e row) ∨
  (∃ e path name, Removal (events (a :: later).reverse) (path, some name) e ∧
    SaysOldValue path name "DeletedTransactionLog" e row)

/-- The row is about a key as it is in the end or as it was last stored: it has no value, and it is not marked as
modified. -/
def keyRow (row : List Str) : Bool :=
  column row "Value Type" == some [] && status row != "ModifiedTransactionLog".toList

/-- What the rows say about the history of the hive:
- those that are not marked as recovered are about the keys and values stored in the end, and if not only recovered
  items are asked for, they are exactly these, in order;
- all others are about the past;
- every key lost below a survivor has a row;
- all former contents of every key that is reached have a row;
- all former contents of values that are still there have a row;
- every value removed from a key that is reached has a row, unless it was put there again with the same contents;
- no key, stored or lost, has two rows besides those of its former contents. -/
structure RowsTellPast (times : TimeRange) (recoveredOnly : Bool) (a : FullState) (later : List FullState)
    (last : FullState) (rows : List (List Str)) : Prop where
  numbered : ∀ i row, rows[i]? = some row → column row "Index" = some (Nat.toDigits 10 (i + 1))
  stored : ∀ row ∈ rows, status row = "Allocated".toList →
    ∃ x ∈ storedItems last.plain.keys last.tree.nodes last.plain.vals, RowSays times row x
  present : recoveredOnly = false → Pairwise2 (RowSays times) (rows.filter fun r => status r == "Allocated".toList)
    (storedItems last.plain.keys last.tree.nodes last.plain.vals)
  past : ∀ row ∈ rows, status row ≠ "Allocated".toList → PastRow times a later last row
  lost : ∀ q ∈ steps ((a :: later).map FullState.plain), ∀ key, Lost q.1 q.2 key → BelowSurvivor last.plain key.2 →
    ∃ row ∈ rows, SaysLost times q.1 q.2 key row
  keys : ∀ e ∈ events (a :: later).reverse, ∀ path, Reached last.plain path → e.changes (path, none) →
    ∃ row ∈ rows, SaysOldKey times path e row
  values : ∀ e ∈ events (a :: later).reverse, ∀ path name, path ≠ '\\' :: last.tree.name →
    last.item (path, some name) ≠ none → e.changes (path, some name) →
    ∃ row ∈ rows, SaysOldValue path name "ModifiedTransactionLog" e row
  removed : ∀ e ∈ events (a :: later).reverse, ∀ path name, Reached last.plain path → e.removes (path, some name) →
    StaysAway (events (a :: later).reverse) (path, some name) e →
    ∃ row ∈ rows, SaysOldValue path name "DeletedTransactionLog" e row
  once : ((rows.filter keyRow).map fun r => column r "Key Path").Nodup

/-- The table that is written has these rows: a text with the headings, the rows and an empty line, or a sheet with
the headings, the rows and nothing else, whose cells show the texts without the characters XML does not allow. -/
def HasRows (type : OutputType) (d : Dumped) (rows : List (List Str)) : Prop :=
  match type, d with
  | .Tsv, .text s => ∃ rest, readRecords '\t' 12 (rows.length + 1) s = some (tsvColumns :: rows, rest) ∧ ['\n'] <+: rest
  | .Xlsx, .book items _ overflow =>
    (∀ c, Shows items overflow 0 c (tsvColumns[c]?.getD [])) ∧
    (∀ i row, rows[i]? = some row → ∀ c, Shows items overflow (i + 1) c (cleaned (row[c]?.getD []))) ∧
    ∀ i, rows.length < i → ∀ c, Shows items overflow i c []
  | _, _ => False

/-! ### JSONL -/

/-- The JSON says the value: its name, type, flags, content and state. -/
def JsonVal (full : Bool) (y : FlaggedVal) (state : String) (j : Json) : Prop :=
  IsText (j.field "value_name") (shownName y.val.name) ∧
  IsText (j.at ["detail", variant full, "value_name", "value"]) y.val.name ∧
  IsNumber (j.at ["detail", variant full, "data_type_raw", "value"]) y.val.type ∧
  IsNumber (j.at ["detail", variant full, "flags_raw", "value"]) y.flags ∧
  IsText (j.field "state") state.toList ∧
  ∃ c, ContentOf y.val.type y.val.data c ∧ IsContent (j.field "value") c

/-- The JSON says the value as the entry found it, and the numbers of the entries that made and that changed it. -/
def JsonOldValue (full : Bool) (path name : Str) (state : String) (e : Event) (j : Json) : Prop :=
  (∃ y, e.was (path, some name) = some (.inr y) ∧ y.val.name = name ∧ JsonVal full y state j) ∧
  IsNumber (j.field "sequence_num") (since (path, some name) e.1) ∧
  IsNumber (j.field "updated_by_sequence_num") e.2.seq

/-- The JSON of a key with this path tells its values: those it has now, each with all its former contents, the newest
first, and then those that were removed and not put there again with the same contents. -/
def JsonValues (full : Bool) (last : FullState) (evs : List Event) (path : Str) (j : Json) : Prop :=
  ∃ own gone, j.field "sub_values" = some (.arr (own ++ gone)) ∧
    Pairwise2 (fun j y => JsonVal full y "Allocated" j ∧ ∃ js, j.field "versions" = some (.arr js) ∧
        Pairwise2 (JsonOldValue full path y.val.name "ModifiedTransactionLog")
          (evs.filter (Event.changes (path, some y.val.name))) js)
      own (last.valuesOf path) ∧
    (∀ j ∈ gone, j.field "versions" = some (.arr []) ∧ ∃ e name, Removal evs (path, some name) e ∧
      JsonOldValue full path name "DeletedTransactionLog" e j) ∧
    ∀ e ∈ evs, ∀ name, e.removes (path, some name) → StaysAway evs (path, some name) e → ∃ j ∈ gone,
      JsonOldValue full path name "DeletedTransactionLog" e j

/-- The JSON says the key with this path and state: where it is, its name, when it was written, its flags. -/
def JsonKey (full : Bool) (u : Tree) (path : Str) (state : String) (j : Json) : Prop :=
  IsNumber (j.field "file_offset_absolute") u.off ∧
  IsText (j.field "key_name") u.name ∧ IsText (j.field "path") path ∧ IsText (j.field "cell_state") state.toList ∧
  IsNumber (j.at ["detail", variant full, "last_key_written_date_and_time", "value"]) u.cell.lastWritten ∧
  IsNumber (j.at ["detail", variant full, "key_node_flag_bits", "value"]) u.cell.flags ∧
  IsNumber (j.at ["detail", variant full, "access_flag_bits", "value"]) u.cell.access

/-- The JSON says the lost key as last stored, and the number of the entry that took it away. -/
def JsonLost (full : Bool) (a b : FileState) (key : Nat × Str) (j : Json) : Prop :=
  (∃ u ∈ a.tree.nodes, u.off = key.1 ∧ JsonKey full u key.2 "DeletedTransactionLog" j) ∧
  IsNumber (j.field "updated_by_sequence_num") b.seq

/-- The state of the key is "Allocated". -/
def isAllocated (j : Json) : Bool :=
  match j.field "cell_state" with
  | some (.str s) => s == "Allocated".toList
  | _ => false

/-- What the lines say about the history of the hive:
- those not marked as recovered are the keys stored in the end, in order;
- the others are keys lost below a survivor, and all of these have a line;
- every line tells all the entries have done to the values of the key (only that of the root nothing but the
  present ones);
- no two lines have the same path.
Former contents of keys are not told. -/
structure LinesTellPast (full : Bool) (a : FullState) (later : List FullState) (last : FullState) (js : List Json) :
    Prop where
  present : Pairwise2 (fun j (x : Str × Tree) => JsonKey full x.2 x.1 "Allocated" j) (js.filter isAllocated)
    (last.tree.keys [])
  past : ∀ j ∈ js, isAllocated j = false → ∃ q ∈ steps ((a :: later).map FullState.plain), ∃ key, Lost q.1 q.2 key ∧
    BelowSurvivor last.plain key.2 ∧ JsonLost full q.1 q.2 key j
  lost : ∀ q ∈ steps ((a :: later).map FullState.plain), ∀ key, Lost q.1 q.2 key → BelowSurvivor last.plain key.2 →
    ∃ j ∈ js, JsonLost full q.1 q.2 key j
  values : ∀ j ∈ js, ∃ path, IsText (j.field "path") path ∧
    JsonValues full last (if path = '\\' :: last.tree.name then [] else events (a :: later).reverse) path j
  once : (js.map fun j => j.field "path").Pairwise fun x y => ∀ s, IsText x s → ¬ IsText y s

end Notatin.Spec
