import Verif.Spec.Values
import Verif.Spec.Texts
import Verif.Spec.Content
import Verif.Lemmas.Text
/-
What an export says about the keys and values stored in a hive: the spec speaks of the stored tree and of
what a reader finds in the output, not of what the program keeps in between.
-/
namespace Notatin.Spec
open Notatin

/-- The typed content of a value with this type and data: numbers by their width and byte order (all bytes, if
they are too few), texts in UTF-16 up to a null character, lists of texts, else the bytes.

Texts that are not well-formed UTF-16 are left open (C61), as are lists with a blank text or with a character
beyond the basic plane (C19). -/
def ContentOf (type : Nat) (data : Bytes) (c : CellValue) : Prop :=
  match (kindOf (DataType.ofRaw type)).width with
  | some w =>
    if w ≤ data.length then numberOf c = (kindOf (DataType.ofRaw type)).number data else c = .Binary data
  | none =>
    match kindOf (DataType.ofRaw type) with
    | .text => (∃ s, c = .String s) ∧ ∀ s tail, '\x00' ∉ s → TextEnd tail → data = utf16le s ++ tail → c = .String s
    | .texts => (∃ ss, c = .MultiString ss) ∧ ∀ ss tail,
        (∀ s ∈ ss, '\x00' ∉ s ∧ (∀ x ∈ s, x.toNat < 0x10000) ∧ ∃ x ∈ s, isWhitespace x = false) → TextEnd tail →
        data = (ss.flatMap fun s => utf16le s ++ [0, 0]) ++ tail → c = .MultiString ss
    | _ => c = .Binary data

/-- The name shown for a value. -/
def shownName (name : Str) : Str := if name = [] then "(default)".toList else name

/-- The keys of the listing `es` (offset and path), as keys of the tree. -/
def KeysOf (t : Tree) (es : List (Nat × Str)) (us : List Tree) : Prop :=
  (∀ u ∈ us, u ∈ t.nodes) ∧ us.map Tree.off = es.map Prod.fst

/-! ### JSONL -/

/-- The JSON of a value says its name, type, state and content; nothing older is shown, and no warning for the
cell. -/
def JsonSaysValue (full : Bool) (j : Json) (x : Val) : Prop :=
  IsText (j.field "value_name") (shownName x.name) ∧
  IsNumber (j.at ["detail", variant full, "data_type_raw", "value"]) x.type ∧
  IsText (j.field "state") "Allocated".toList ∧
  IsWarnings (j.at ["cell_parse_warnings", "logs"]) [] ∧
  j.field "sequence_num" = some .null ∧
  j.field "versions" = some (.arr []) ∧
  ∃ c, ContentOf x.type x.data c ∧ IsContent (j.field "value") c

/-- The JSON of a key says where it is, its name and path, when it was written, its flags, and its values in
order. -/
def JsonSaysKey (full : Bool) (j : Json) (u : Tree) (path : Str) (xs : List Val) : Prop :=
  IsNumber (j.field "file_offset_absolute") u.off ∧
  IsText (j.field "key_name") u.name ∧ IsText (j.field "path") path ∧
  IsText (j.field "cell_state") "Allocated".toList ∧ j.field "sequence_num" = some .null ∧
  IsNumber (j.at ["detail", variant full, "last_key_written_date_and_time", "value"]) u.cell.lastWritten ∧
  IsNumber (j.at ["detail", variant full, "key_node_flag_bits", "value"]) u.cell.flags ∧
  IsNumber (j.at ["detail", variant full, "access_flag_bits", "value"]) u.cell.access ∧
  ∃ js, j.field "sub_values" = some (.arr js) ∧ Pairwise2 (JsonSaysValue full) js xs

/-- The text is one line of JSON for every key of the listing, in order. -/
def JsonlSays (full : Bool) (text : Str) (es : List (Nat × Str)) (us : List Tree) (vals : Nat → List Val) : Prop :=
  ∃ js, (lines text).map readJson = js.map some ∧
    Pairwise2 (fun j (x : Tree × (Nat × Str)) => JsonSaysKey full j x.1 x.2.2 (vals x.1.off)) js (us.zip es)

/-! ### Tables -/

/-- What a row is about: a key with its path, or a value of the key with that path. -/
inductive StoredItem where
  | key (u : Tree) (path : Str)
  | value (u : Tree) (path : Str) (x : Val)

/-- The rows there have to be: for every key of the listing one for the key and one for each of its values. -/
def storedItems (es : List (Nat × Str)) (us : List Tree) (vals : Nat → List Val) : List StoredItem :=
  (us.zip es).flatMap fun x => .key x.1 x.2.2 :: (vals x.1.off).map (.value x.1 x.2.2)

/-- The row says what is stored. -/
def RowSays (times : TimeRange) (row : List Str) : StoredItem → Prop
  | .key u path =>
    column row "Key Path" = some path ∧
    column row "Subkey Count" = some (Nat.toDigits 10 u.kids.length) ∧
    (∃ s, column row "Timestamp" = some s ∧ (times u.cell.lastWritten → Tells s u.cell.lastWritten)) ∧
    column row "Status" = some "Allocated".toList ∧
    (∃ s, column row "Flags" = some s ∧ NamesFlags "KeyNodeFlags" keyFlagNames u.cell.flags s) ∧
    (∃ s, column row "Access Flags" = some s ∧ NamesFlags "AccessFlags" accessFlagNames u.cell.access s) ∧
    column row "Value Name" = some [] ∧ column row "Value Data" = some [] ∧ column row "Value Type" = some []
  | .value _ path x =>
    column row "Key Path" = some path ∧ column row "Value Name" = some (shownName x.name) ∧
    (∃ type data c, column row "Value Type" = some type ∧ column row "Value Data" = some data ∧
      readContent type data = some c ∧ ContentOf x.type x.data c) ∧
    column row "Status" = some "Allocated".toList

/-- The text is a table with the headings and then exactly these rows, numbered from 1. -/
def TsvSays (times : TimeRange) (text : Str) (xs : List StoredItem) : Prop :=
  ∃ rows rest, readRecords '\t' 12 (xs.length + 1) text = some (tsvColumns :: rows, rest) ∧
    rows.length = xs.length ∧ ['\n'] <+: rest ∧
    ∀ i x, xs[i]? = some x → ∃ row, rows[i]? = some row ∧
      column row "Index" = some (Nat.toDigits 10 (i + 1)) ∧ RowSays times row x

/-- The record of the common format says what is stored: `A` for in use; for a key its offset, path (without the
backslash in front) and time; for a value its name, the number of its type (if it is a documented one) and its
data.  The key of a value is told by its name only (C57). -/
def CommonSaysItem (times : TimeRange) (record : List Str) : StoredItem → Prop
  | .key u path => ∃ time,
    record = ["key".toList, ['A'], Nat.toDigits 10 u.off, path.drop 1, [], [], [], time] ∧
    (times u.cell.lastWritten → Tells time u.cell.lastWritten)
  | .value u _ x => ∃ off type hex,
    record = ["value".toList, ['A'], off, u.name, shownName x.name, type, hex, []] ∧
    (documentedType x.type = true → type = Nat.toDigits 10 x.type) ∧ readHex hex = some x.data

/-- After the comments at the beginning the text has exactly these records, and then comments. -/
def CommonSays (times : TimeRange) (text : Str) (xs : List StoredItem) : Prop :=
  ∃ recs rest, readRecords ',' 7 xs.length (afterComments text) = some (recs, rest) ∧
    Pairwise2 (CommonSaysItem times) recs xs ∧ ∀ l ∈ lines rest, ['#', '#'] <+: l

end Notatin.Spec
