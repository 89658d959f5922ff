import Verif.Model.Xlsx
import Verif.Spec.Writers
/-
What the spreadsheet should show, in terms of the cells a reader finds in it.
-/
namespace Notatin.Spec

/-- Whether XML 1.0 allows the character: no control character except tab, line feed and carriage
return, and neither U+FFFE nor U+FFFF. -/
def XmlChar (c : Char) : Prop :=
  (c.toNat < 32 → c = '\t' ∨ c = '\n' ∨ c = '\r') ∧ c.toNat ≠ 0xFFFE ∧ c.toNat ≠ 0xFFFF

instance (c : Char) : Decidable (XmlChar c) := inferInstanceAs (Decidable (_ ∧ _ ∧ _))

/-- The text with a replacement character for everything XML 1.0 does not allow. -/
def cleaned (s : Str) : Str := s.map fun c => if XmlChar c then c else Char.ofNat 0xFFFD

/-- The contents written to a cell. -/
def cellsAt (s : Sheet) (row col : Nat) : List XCell :=
  s.cells.filterMap fun x => if x.1 = row ∧ x.2.1 = col then some x.2.2 else none

/-- The links put on a cell. -/
def linksAt (s : Sheet) (row col : Nat) : List Str :=
  s.links.filterMap fun x => if x.1 = row ∧ x.2.1 = col then some x.2.2 else none

/-- The columns and contents of a row. -/
def rowCells (s : Sheet) (row : Nat) : List (Nat × XCell) :=
  s.cells.filterMap fun x => if x.1 = row then some x.2 else none

/-- What a reader sees in a cell. -/
def _root_.Notatin.XCell.shown : XCell → Str
  | .text s => s
  | .number n => Nat.toDigits 10 n

/-- The pieces in consecutive columns. -/
def pieces : Nat → List Str → List (Nat × XCell)
  | _, [] => []
  | col, c :: cs => (col, .text c) :: pieces (col + 1) cs

/-- The reader finds the text at this place: the cell is empty or has it, or has its first 250
characters and names and links a row of the overflow sheet where the whole text is in the columns from
the second on.  (Rows are counted from 0 here and from 1 in the texts.) -/
inductive Shows (s overflow : Sheet) (row col : Nat) (text : Str) : Prop where
  | empty (cell : cellsAt s row col = []) (link : linksAt s row col = []) (h : text = [])
  | cell (x : XCell) (cell : cellsAt s row col = [x]) (link : linksAt s row col = []) (h : text = x.shown)
  | long (n : Nat) (chunks : List Str)
      (cell : cellsAt s row col
        = [.text (text.take 250 ++ " [truncated; row: ".toList ++ Nat.toDigits 10 (n + 1) ++ "]".toList)])
      (link : linksAt s row col = ["internal:Overflow!A".toList ++ Nat.toDigits 10 (n + 1)])
      (inside : n < overflow.row)
      (whole : rowCells overflow n
        = (0, .text (" [truncated; row: ".toList ++ Nat.toDigits 10 (n + 1) ++ "]".toList)) :: pieces 1 chunks)
      (h : text = chunks.flatten)

/-- The texts of the TSV export that belong to those of the spreadsheet. -/
def _root_.Notatin.XlsxTexts.tsv (t : XlsxTexts) : TsvTexts where
  time := t.time
  flags := t.flags
  access := t.access
  data v := (t.content v).display t.dbg
  type := t.type
  logs := t.logs

/-- The items of an export. -/
def exported (recoveredOnly : Bool) (ns : List Node) : List ExportItem :=
  if recoveredOnly then (allItems ns).filter ExportItem.recovered else allItems ns

/-- The row of an item: its number and its fields, as in the TSV export, without the characters XML
does not allow. -/
def itemRow (t : XlsxTexts) (number : Nat) (x : ExportItem) : List Str :=
  Nat.toDigits 10 number :: (x.fields t.tsv).map cleaned

/-- The texts of an item that may be long. -/
def longable (t : XlsxTexts) (x : ExportItem) : List Str :=
  (match x with
   | .key n => [n.key.path, t.logs n.key.logs]
   | .value n v => [n.key.path, v.val.prettyName, (t.content v).display t.dbg, t.type v, t.logs v.val.logs]).map
    cleaned

/-- The number of texts of more than 32767 bytes. -/
def longCount (ts : List Str) : Nat := ts.countP fun s => 32767 < utf8Len s

end Notatin.Spec
