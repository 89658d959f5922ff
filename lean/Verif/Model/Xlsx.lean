import Verif.Model.Writers
/-
Model of /repo/bin/reg_dump/xlsx_writer.rs.

Simplified: formats (colours, borders, shading, widths) are dropped, and so is the progress display.
A sheet is what was written to it; what `libxlsxwriter` refuses is in `Sheet.put` and `Sheet.link`.
-/
namespace Notatin

/-- What a cell holds. -/
inductive XCell where
  | text (s : Str)
  | number (n : Nat)
deriving DecidableEq

/-- `WorksheetState` without the shading, /repo/bin/reg_dump/xlsx_writer.rs lines 448-467: the current
row, and what was written so far as row, column and content or target. -/
structure Sheet where
  row : Nat := 0
  cells : List (Nat × Nat × XCell) := []
  links : List (Nat × Nat × Str) := []
deriving DecidableEq

/-- Whether `libxlsxwriter` takes the content: at most 32767 characters, and no NUL, which the
conversion to a C string refuses. -/
def XCell.accepted : XCell → Bool
  | .text s => s.length ≤ 32767 && !s.contains '\x00'
  | .number _ => true

/-- `write_string` and `write_number`, /repo/bin/reg_dump/xlsx_writer.rs lines 469-475.  The library
takes rows up to 1048575 and columns up to 16383, counted from 0. -/
def Sheet.put (s : Sheet) (col : Nat) (c : XCell) : Res Sheet :=
  if s.row < 1048576 ∧ col < 16384 ∧ c.accepted = true then
    .ok { s with cells := s.cells ++ [(s.row, col, c)] }
  else .err

/-- `write_url` of the library: at most 65530 links on a sheet.  (The text it puts into the cell is
replaced by the `write_string` that follows in the code.) -/
def Sheet.link (s : Sheet) (col : Nat) (target : Str) : Res Sheet :=
  if s.row < 1048576 ∧ col < 16384 ∧ s.links.length < 65530 then
    .ok { s with links := s.links ++ [(s.row, col, target)] }
  else .err

/-- `safe_split_at`, /repo/bin/reg_dump/xlsx_writer.rs lines 305-311. -/
def safeSplitAt (val : Str) (maxSplit : Nat) : Str × Str :=
  let offset := min maxSplit (utf8Len val)
  (val.take offset, val.drop offset)

/-- `safe_truncate`, /repo/bin/reg_dump/xlsx_writer.rs lines 313-316. -/
def safeTruncate (val : Str) (maxSplit : Nat) : Str := val.take (min maxSplit (utf8Len val))

theorem utf8Len_pos (c : Char) (s : Str) : 0 < utf8Len (c :: s) := by
  have := Char.utf8Size_pos c
  simp only [utf8Len, List.map_cons, List.sum_cons]
  omega

/-- The loop that cuts a long text, /repo/bin/reg_dump/xlsx_writer.rs lines 330-334. -/
def overflowChunks : Str → List Str
  | [] => []
  | c :: s => (safeSplitAt (c :: s) 32767).1 :: overflowChunks (safeSplitAt (c :: s) 32767).2
termination_by s => s.length
decreasing_by
  have := utf8Len_pos c s
  simp only [safeSplitAt, List.length_drop, List.length_cons]
  omega

/-- The loop that writes the pieces, /repo/bin/reg_dump/xlsx_writer.rs lines 339-341; `col` is the
column of the first piece.  The column has to fit into 16 bits. -/
def putChunks : Sheet → Nat → List Str → Res Sheet
  | o, _, [] => .ok o
  | o, col, c :: cs =>
    if col < 65536 then
      match o.put col (.text c) with
      | .ok o => putChunks o (col + 1) cs
      | .err => .err
      | .panic => .panic
    else .err

/-- `truncated_label`, /repo/bin/reg_dump/xlsx_writer.rs lines 336-337. -/
def truncatedLabel (row : Nat) : Str := " [truncated; row: ".toList ++ decimal row ++ "]".toList

/-- `write_string_handle_overflow`, /repo/bin/reg_dump/xlsx_writer.rs lines 318-364: the sheet and the
overflow sheet after it. -/
def writeOverflow (p o : Sheet) (col : Nat) (val : Str) : Res (Sheet × Sheet) :=
  if utf8Len val > 32767 then do
    let label := truncatedLabel (o.row + 1)
    let o ← o.put 0 (.text label)
    let o ← putChunks o 1 (overflowChunks val)
    let o := { o with row := o.row + 1 }
    let p ← p.link col ("internal:Overflow!A".toList ++ decimal o.row)
    let p ← p.put col (.text (safeTruncate val 250 ++ label))
    .ok (p, o)
  else do
    let p ← p.put col (.text val)
    .ok (p, o)

/-- `check_write_string`, /repo/bin/reg_dump/xlsx_writer.rs lines 366-384. -/
def checkWrite (p o : Sheet) (col : Nat) (val : Str) : Res (Sheet × Sheet) :=
  if val = [] then .ok (p, o) else writeOverflow p o col val

/-- `is_legal_xml_1_0`, /repo/bin/reg_dump/xlsx_writer.rs lines 414-422. -/
def isLegalXml (c : Char) : Bool :=
  c.toNat == 9 || c.toNat == 10 || c.toNat == 13 || (0x20 ≤ c.toNat && c.toNat ≤ 0xD7FF) ||
  (0xE000 ≤ c.toNat && c.toNat ≤ 0xFFFD) || (0x10000 ≤ c.toNat && c.toNat ≤ 0x10FFFF)

/-- `Iterator::position`. -/
def positionOf (p : Char → Bool) : Str → Option Nat
  | [] => none
  | c :: s => if p c then some 0 else (positionOf p s).map (· + 1)

/-- `sanitize_for_xml_1_0`, /repo/bin/reg_dump/xlsx_writer.rs lines 424-439. -/
def sanitizeXml (s : Str) : Str :=
  match positionOf (fun c => !isLegalXml c) s with
  | none => s
  | some i => s.take i ++ (s.drop i).map fun c => if isLegalXml c then c else '�'

/-- The sign and digits of an integer. -/
def intText : Int → Str
  | .ofNat n => decimal n
  | .negSucc n => '-' :: decimal (n + 1)

/-- `Display` of `CellValue`, /repo/src/cell_value.rs lines 45-58; `dbg` is `{:?}` of a list of
texts. -/
def CellValue.display (dbg : List Str → Str) : CellValue → Str
  | .Binary b => toHexString b
  | .String s => s
  | .MultiString m => dbg m
  | .U32 n => decimal n
  | .I32 i => intText i
  | .U64 n => decimal n
  | .I64 i => intText i
  | .None => []
  | .Error => []

/-- `sanitize_cell`, /repo/bin/reg_dump/xlsx_writer.rs lines 441-446. -/
def sanitizeCell (dbg : List Str → Str) : CellValue → Str
  | .String s => sanitizeXml s
  | v => v.display dbg

/-- The three ways in which a cell is written. -/
inductive XField where
  | number (n : Nat)
  | text (s : Str)
  | checked (s : Str)
deriving DecidableEq

/-- One write of a cell. -/
def writeField (p o : Sheet) (col : Nat) : XField → Res (Sheet × Sheet)
  | .number n => do
    let p ← p.put col (.number n)
    .ok (p, o)
  | .text s => do
    let p ← p.put col (.text s)
    .ok (p, o)
  | .checked s => checkWrite p o col s

/-- Writes of cells in turn. -/
def writeFields : Sheet → Sheet → List (Nat × XField) → Res (Sheet × Sheet)
  | p, o, [] => .ok (p, o)
  | p, o, (col, f) :: fs => do
    let (p, o) ← writeField p o col f
    writeFields p o fs

/-- An optional number in a column. -/
def optNumber (col : Nat) : Option Nat → List (Nat × XField)
  | some n => [(col, .number n)]
  | none => []

/-- What the cells show that is not modelled: as `TsvTexts`, with the content of a value and `{:?}`
of a list of texts in place of its text. -/
structure XlsxTexts where
  time : KeyNode → Str
  flags : KeyNode → Str
  access : KeyNode → Str
  content : Value → CellValue
  dbg : List Str → Str
  type : Value → Str
  logs : Logs → Str

/-- The writes for a key in its row, /repo/bin/reg_dump/xlsx_writer.rs lines 173-212. -/
def xlsxKeyFields (t : XlsxTexts) (k : KeyNode) (row : Nat) : List (Nat × XField) :=
  [(0, .number row), (1, .checked (sanitizeXml k.path)), (2, .number k.subKeyOffsets.length),
   (5, .text (t.time k)), (6, .text (statusText k.cellState))] ++
  optNumber 7 k.seq ++ optNumber 8 k.updatedBySeq ++
  [(9, .text (t.flags k)), (10, .text (t.access k)), (12, .checked (sanitizeXml (t.logs k.logs)))]

/-- The writes for a value in its row, /repo/bin/reg_dump/xlsx_writer.rs lines 257-301. -/
def xlsxValueFields (t : XlsxTexts) (n : Node) (v : Value) (row : Nat) : List (Nat × XField) :=
  [(0, .number row), (1, .checked (sanitizeXml n.key.path)), (3, .checked (sanitizeXml v.val.prettyName)),
   (4, .checked (sanitizeCell t.dbg (t.content v))), (6, .text (statusText v.val.cellState))] ++
  optNumber 7 v.val.seq ++ optNumber 8 v.val.updatedBySeq ++
  [(11, .checked (t.type v)), (12, .checked (sanitizeXml (t.logs v.val.logs)))]

/-- A row with these writes: the row counter goes up first. -/
def xlsxRow (fields : Nat → List (Nat × XField)) (s : Sheet × Sheet) : Res (Sheet × Sheet) :=
  let p := { s.1 with row := s.1.row + 1 }
  writeFields p s.2 (fields p.row)

/-- A loop that changes the sheets. -/
def xlsxEach {α : Type} (f : α → Sheet × Sheet → Res (Sheet × Sheet)) :
    List α → Sheet × Sheet → Res (Sheet × Sheet)
  | [], s => .ok s
  | a :: as, s =>
    match f a s with
    | .ok s => xlsxEach f as s
    | .err => .err
    | .panic => .panic

/-- `write_value`, /repo/bin/reg_dump/xlsx_writer.rs lines 232-303. -/
def xlsxValue (t : XlsxTexts) (recoveredOnly : Bool) (n : Node) (v : Value) (s : Sheet × Sheet) :
    Res (Sheet × Sheet) :=
  if recoveredOnly && !v.hasOrIsRecovered then .ok s else xlsxRow (xlsxValueFields t n v) s

/-- A value and its versions, /repo/bin/reg_dump/xlsx_writer.rs lines 221-227. -/
def xlsxValues (t : XlsxTexts) (recoveredOnly : Bool) (n : Node) (v : Value) (s : Sheet × Sheet) :
    Res (Sheet × Sheet) :=
  xlsxEach (xlsxValue t recoveredOnly n) (v :: v.versions) s

/-- `write_key` for a version (`is_key_version`), /repo/bin/reg_dump/xlsx_writer.rs lines 151-230: the
key and, recursively, its versions; no values. -/
def xlsxVersion (t : XlsxTexts) (recoveredOnly : Bool) : Node → Sheet × Sheet → Res (Sheet × Sheet)
  | .mk k vs ds, s =>
    if !recoveredOnly || (Node.mk k vs ds).hasOrIsRecovered then
      match xlsxRow (xlsxKeyFields t k) s with
      | .ok s => versions vs s
      | .err => .err
      | .panic => .panic
    else .ok s
where
  /-- The loop over the versions, lines 214-216. -/
  versions : List Node → Sheet × Sheet → Res (Sheet × Sheet)
    | [], s => .ok s
    | v :: vs, s =>
      match xlsxVersion t recoveredOnly v s with
      | .ok s => versions vs s
      | .err => .err
      | .panic => .panic

/-- `write_key` for a key, /repo/bin/reg_dump/xlsx_writer.rs lines 151-230: the same followed by the
values. -/
def xlsxKey (t : XlsxTexts) (recoveredOnly : Bool) (n : Node) (s : Sheet × Sheet) : Res (Sheet × Sheet) :=
  match xlsxVersion t recoveredOnly n s with
  | .ok s => xlsxEach (xlsxValues t recoveredOnly n) n.key.values s
  | .err => .err
  | .panic => .panic

/-- The heading, /repo/bin/reg_dump/xlsx_writer.rs lines 113-125. -/
def xlsxHeader : List (Nat × XField) :=
  [(0, .text "Index".toList), (1, .text "Key Path".toList), (2, .text "Subkey Count".toList),
   (3, .text "Value Name".toList), (4, .text "Value Data".toList), (5, .text "Timestamp".toList),
   (6, .text "Status".toList), (7, .text "Previous Seq Num".toList), (8, .text "Modifying Seq Num".toList),
   (9, .text "Flags".toList), (10, .text "Access Flags".toList), (11, .text "Value Type".toList),
   (12, .text "Logs".toList)]

/-- The loop over the logs, /repo/bin/reg_dump/xlsx_writer.rs lines 136-146; a log is the text of its
code and its text. -/
def xlsxLogs : List (Str × Str) → Sheet × Sheet → Res (Sheet × Sheet)
  | [], s => .ok s
  | (code, text) :: ls, s => do
    let (p, o) ← writeFields s.1 s.2 [(0, .text code), (1, .checked text)]
    xlsxLogs ls ({ p with row := p.row + 1 }, o)

/-- `write`, /repo/bin/reg_dump/xlsx_writer.rs lines 73-149, on the keys the iterator yields: the
sheets with the items, the logs and the overflow. -/
def writeXlsx (t : XlsxTexts) (recoveredOnly : Bool) (logs : List (Str × Str)) (ns : List Node) :
    Res (Sheet × Sheet × Sheet) := do
  let s ← writeFields {} {} xlsxHeader
  let (items, o) ← xlsxEach (xlsxKey t recoveredOnly) ns s
  let (l, o) ← xlsxLogs logs ({}, o)
  .ok (items, l, o)

end Notatin
