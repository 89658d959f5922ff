import Verif.Model.Cell
/-
Model of `/repo/src/sub_key_list_{lf,lh,li,ri}.rs` and of `parse_sub_key_list`
(/repo/src/cell_key_node.rs lines 487-512).
-/
namespace Notatin

/-- A leaf list cell as parsed: `size`, `count` and the relative offsets of its items.  The name
hint of an `lf` item and the hash of an `lh` item are read and dropped (they are never used). -/
structure SubKeyList where
  size : Nat
  count : Nat
  items : List Nat
deriving Repr, DecidableEq

/-- `SubKeyListLfItem::from_bytes`, /repo/src/sub_key_list_lf.rs lines 83-97 (`from_ascii` of the
4 hint bytes cannot fail, its result is dropped). -/
def lfItem (input : Bytes) : Option (Nat × Bytes) := do
  let (off, input) ← leU32 input
  let (_, input) ← take 4 input
  some (off, input)

/-- `SubKeyListLhItem::from_bytes`, /repo/src/sub_key_list_lh.rs lines 83-95. -/
def lhItem (input : Bytes) : Option (Nat × Bytes) := do
  let (off, input) ← leU32 input
  let (_, input) ← leU32 input
  some (off, input)

/-- `from_bytes_internal` of lf (/repo/src/sub_key_list_lf.rs lines 50-64), lh
(/repo/src/sub_key_list_lh.rs lines 34-49), li (/repo/src/sub_key_list_li.rs lines 34-49) and
`SubKeyListRi::from_bytes` (/repo/src/sub_key_list_ri.rs lines 52-67): they differ only in the
signature and the item parser. -/
def SubKeyList.fromBytes (sig : Bytes) (item : Bytes → Option (Nat × Bytes)) (input : Bytes) :
    Option (SubKeyList × Bytes) := do
  let (size, input) ← leI32 input
  let (_, input) ← tag sig input
  let (count, input) ← leU16 input
  let (items, input) ← Notatin.count item count input
  some ({ size := unsignedAbs size, count, items }, input)

/-- `get_offset_list` of lf and li (/repo/src/sub_key_list_lf.rs lines 40-45,
/repo/src/sub_key_list_li.rs lines 65-70): a plain `u32` addition, which overflows (panics in a
debug build). -/
def offsetListAdd (hbin : Nat) : List Nat → Res (List Nat)
  | [] => .ok []
  | x :: xs =>
    if x + hbin < 4294967296 then
      match offsetListAdd hbin xs with
      | .ok ys => .ok ((x + hbin) :: ys)
      | .err => .err
      | .panic => .panic
    else .panic

/-- `get_offset_list` of lh (/repo/src/sub_key_list_lh.rs lines 65-73): `checked_add`, entries
that overflow are skipped. -/
def offsetListChecked (hbin : Nat) (xs : List Nat) : List Nat :=
  xs.filterMap fun x => if x + hbin < 4294967296 then some (x + hbin) else none

/-- `alt((lf, lh, li))` followed by `get_offset_list`, /repo/src/cell_key_node.rs lines 503-509.
`hbin_offset_absolute as u32` is the identity here (the bin start is 4096). -/
def parseLeafList (hbin : Nat) (slice : Bytes) : Res (List Nat) :=
  match SubKeyList.fromBytes [0x6C, 0x66] lfItem slice with
  | some (l, _) => offsetListAdd hbin l.items
  | none =>
    match SubKeyList.fromBytes [0x6C, 0x68] lhItem slice with
    | some (l, _) => .ok (offsetListChecked hbin l.items)
    | none =>
      match SubKeyList.fromBytes [0x6C, 0x69] leU32 slice with
      | some (l, _) => offsetListAdd hbin l.items
      | none => .err

/-- The loop of `SubKeyListRi::parse_offsets`, /repo/src/sub_key_list_ri.rs lines 74-83, over a
given `parse_sub_key_list`. -/
def riLoop (parse : Nat → Res (List Nat)) : List Nat → Res (List Nat)
  | [] => .ok []
  | x :: xs =>
    match parse x with
    | .ok ys =>
      match riLoop parse xs with
      | .ok zs => .ok (ys ++ zs)
      | .err => .err
      | .panic => .panic
    | .err => .err
    | .panic => .panic

/-- `parse_sub_key_list`, /repo/src/cell_key_node.rs lines 487-512.  The function calls itself
through `parse_offsets` without any bound; `depth` is the number of nested calls the stack has
room for, running out of it is the stack-overflow abort (`panic`). -/
def parseSubKeyList (fi : FileInfo) : Nat → Nat → Res (List Nat)
  | 0, _ => .panic
  | depth + 1, listOffset =>
    match getFrom fi.buffer (listOffset + fi.hbin) with
    | none => .err
    | some slice =>
      match SubKeyList.fromBytes [0x72, 0x69] leU32 slice with
      | some (ri, _) => riLoop (parseSubKeyList fi depth) ri.items
      | none => parseLeafList fi.hbin slice

end Notatin
