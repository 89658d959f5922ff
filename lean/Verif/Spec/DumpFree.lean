import Verif.Spec.DumpPast
import Verif.Spec.Recovered
/-
What an export with recovered items says about the cells in free and unused space: the spec speaks of the bytes of
the hive and of what a reader finds in the output.
-/
namespace Notatin.Spec
open Notatin

/-- Why an item counts as deleted, as it is shown: it is a free cell, or it is in the unused part of another one. -/
def FreeAs (buf : Bytes) (off : Nat) (state : Str) : Prop :=
  state = "DeletedPrimaryFile".toList ∧ 0 < sizeAt buf off ∨ state = "DeletedPrimaryFileSlack".toList

/-- The offsets of the deleted values and keys that are shown: in the bins, readable, none twice, and all free cells
of the bins starting before `limit` in which a key or a value can be read. -/
structure FreeOffsets (buf : Bytes) (bins : List (Nat × List Nat)) (limit : Nat) (values keys : List Nat) : Prop where
  inBins : ∀ o ∈ values ++ keys, 4096 ≤ o
  readable : (∀ o ∈ values, ValueReadable (buf.drop o)) ∧ ∀ o ∈ keys, KeyReadable (buf.drop o)
  once : (values ++ keys).Nodup
  complete : ∀ bin ∈ bins, bin.1 < limit → ∀ c ∈ bin.2, 0 < sizeAt buf c →
    (KeyReadable (buf.drop c) → c ∈ keys) ∧ (ValueReadable (buf.drop c) → c ∈ values)

/-- The records of an export: those of the root and its values, of the deleted values, of the deleted keys, each
followed by those of its values, and of the other keys and values.  If only recovered items are asked for, there are no
records for what is stored; the records for the values of deleted keys are then left open. -/
def RecordsTellFree {α : Type} (stored : α → StoredItem → Prop) (value key : α → Nat → Prop)
    (ofKey : List α → Nat → Prop) (recoveredOnly : Bool) (buf : Bytes) (bins : List (Nat × List Nat)) (limit : Nat)
    (t : Tree) (vals : Nat → List Val) (records : List α) : Prop :=
  ∃ vOffs kOffs root values keys rest, FreeOffsets buf bins limit vOffs kOffs ∧
    records = root ++ (values ++ (keys.flatten ++ rest)) ∧
    (if recoveredOnly then root = [] ∧ rest = []
     else root.length = 1 + (vals t.off).length ∧
      Pairwise2 stored (root ++ rest) (storedItems (t.pre []) t.nodes vals)) ∧
    Pairwise2 value values vOffs ∧
    Pairwise2 (fun (rs : List α) off => ∃ r vs, rs = r :: vs ∧ key r off ∧ (recoveredOnly = false → ofKey vs off))
      keys kOffs

/-! ### Tables -/

/-- The row says the key cell in free or unused space. -/
def RowOfFreeKey (times : TimeRange) (buf : Bytes) (row : List Str) (off : Nat) : Prop :=
  FreeAs buf off (status row) ∧
  ∀ c name, KeyAt buf off c name → ∃ state, RowOfKey times row ('\\' :: name) (.mk off c name []) state

/-- The rows say the values of the key cell in free or unused space, as far as they are still stored. -/
def RowsOfFreeKey (buf : Bytes) (rows : List (List Str)) (off : Nat) : Prop :=
  ∀ c name vs, KeyAt buf off c name → ValuesAt buf 4096 c vs →
    Pairwise2 (fun row x => ∃ state, RowOfValue row ('\\' :: name) x state) rows vs

/-- The row says the value cell in free or unused space, as if it were a value of the key with this path. -/
def RowOfFreeValue (buf : Bytes) (path : Str) (row : List Str) (off : Nat) : Prop :=
  FreeAs buf off (status row) ∧
  ∀ x, ValueAt buf 4096 (off - 4096) x → ∃ state, RowOfValue row path x state

/-- The rows of a table: numbered, and those that have to be there. -/
def RowsTellFree (times : TimeRange) (recoveredOnly : Bool) (buf : Bytes) (bins : List (Nat × List Nat)) (limit : Nat)
    (t : Tree) (vals : Nat → List Val) (rows : List (List Str)) : Prop :=
  (∀ i row, rows[i]? = some row → column row "Index" = some (Nat.toDigits 10 (i + 1))) ∧
  RecordsTellFree (RowSays times) (RowOfFreeValue buf ('\\' :: t.name)) (RowOfFreeKey times buf) (RowsOfFreeKey buf)
    recoveredOnly buf bins limit t vals rows

/-! ### The common format -/

/-- The record says the key cell in free or unused space: `U`, its offset, its name, its time. -/
def CommonOfFreeKey (times : TimeRange) (buf : Bytes) (record : List Str) (off : Nat) : Prop :=
  ∃ shown time, record = ["key".toList, ['U'], Nat.toDigits 10 off, shown, [], [], [], time] ∧
    ∀ c name, KeyAt buf off c name → shown = name ∧ (times c.lastWritten → Tells time c.lastWritten)

/-- The record says the value: its name, the number of its type and its data. -/
def CommonOfValue (flag : Char) (off : Str) (key : Str) (record : List Str) (x : Val) : Prop :=
  ∃ type hex, record = ["value".toList, [flag], off, key, shownName x.name, type, hex, []] ∧
    (documentedType x.type = true → type = Nat.toDigits 10 x.type) ∧ readHex hex = some x.data

/-- The records say the values of the key cell. -/
def CommonsOfFreeKey (buf : Bytes) (records : List (List Str)) (off : Nat) : Prop :=
  ∀ c name vs, KeyAt buf off c name → ValuesAt buf 4096 c vs →
    Pairwise2 (fun r x => ∃ flag o, CommonOfValue flag o name r x) records vs

/-- The record says the value cell in free or unused space: `U`, its offset, no key. -/
def CommonOfFreeValue (buf : Bytes) (record : List Str) (off : Nat) : Prop :=
  record.take 4 = ["value".toList, ['U'], Nat.toDigits 10 off, []] ∧
  ∀ x, ValueAt buf 4096 (off - 4096) x → CommonOfValue 'U' (Nat.toDigits 10 off) [] record x

/-- After the comments at the beginning the text has these records, and then comments. -/
def HasRecords (text : Str) (records : List (List Str)) : Prop :=
  ∃ rest, readRecords ',' 7 records.length (afterComments text) = some (records, rest) ∧
    ∀ l ∈ lines rest, ['#', '#'] <+: l

/-! ### JSONL -/

/-- The JSON says the value: its name, type, content and state; nothing older is shown. -/
def JsonOfValue (full : Bool) (state : Str) (j : Json) (x : Val) : Prop :=
  IsText (j.field "value_name") (shownName x.name) ∧
  IsNumber (j.at ["detail", variant full, "data_type_raw", "value"]) x.type ∧
  IsText (j.field "state") state ∧ j.field "versions" = some (.arr []) ∧
  ∃ c, ContentOf x.type x.data c ∧ IsContent (j.field "value") c

/-- The JSON says the value cell in free or unused space. -/
def JsonOfFreeValue (full : Bool) (buf : Bytes) (j : Json) (off : Nat) : Prop :=
  IsNumber (j.field "file_offset_absolute") off ∧ ∃ state, FreeAs buf off state ∧ IsText (j.field "state") state ∧
  ∀ x, ValueAt buf 4096 (off - 4096) x → JsonOfValue full state j x

/-- The JSON says the key cell in free or unused space, with its values, as far as they are still stored. -/
def JsonOfFreeKey (full : Bool) (buf : Bytes) (j : Json) (off : Nat) : Prop :=
  IsNumber (j.field "file_offset_absolute") off ∧
  (∃ state, FreeAs buf off state ∧ IsText (j.field "cell_state") state) ∧
  ∀ c name, KeyAt buf off c name → (∃ state, JsonKey full (.mk off c name []) ('\\' :: name) state j) ∧
    ∀ vs, ValuesAt buf 4096 c vs → ∃ js, j.field "sub_values" = some (.arr js) ∧
      Pairwise2 (fun j x => ∃ state, JsonOfValue full state j x) js vs

/-- The lines: the root with its values and behind them the deleted ones, the deleted keys, the other keys. -/
def LinesTellFree (full : Bool) (buf : Bytes) (bins : List (Nat × List Nat)) (limit : Nat) (t : Tree)
    (vals : Nat → List Val) (js : List Json) : Prop :=
  ∃ vOffs kOffs root keys rest, FreeOffsets buf bins limit vOffs kOffs ∧ js = root :: (keys ++ rest) ∧
    JsonKey full t ('\\' :: t.name) "Allocated" root ∧
    (∃ own free, root.field "sub_values" = some (.arr (own ++ free)) ∧
      Pairwise2 (JsonSaysValue full) own (vals t.off) ∧ Pairwise2 (JsonOfFreeValue full buf) free vOffs) ∧
    Pairwise2 (JsonOfFreeKey full buf) keys kOffs ∧
    Pairwise2 (fun j (x : Tree × (Nat × Str)) => JsonSaysKey full j x.1 x.2.2 (vals x.1.off)) rest
      (t.nodes.zip (t.pre [])).tail

end Notatin.Spec
