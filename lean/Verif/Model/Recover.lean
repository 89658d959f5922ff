import Verif.Model.Iterator
/-
Model of the scan for deleted cells, /repo/src/parser_recover_deleted.rs and
/repo/src/parser.rs lines 151-172.

The scan recurses into the slack of the cells it finds without a bound; `depth` is the call depth
the stack has room for, running out of it is the stack-overflow abort (`panic`).  The loops run at
most `steps` rounds; `none` means still running.  File offsets are `Nat` (no overflow of `usize`).
-/
namespace Notatin

/-- `read_checked`, /repo/src/parser_recover_deleted.rs lines 256-266. -/
def readChecked (buffer : Bytes) (off : Nat) : Option Bytes :=
  if off < buffer.length then some (buffer.drop off) else none

/-- `read_range_checked`, /repo/src/parser_recover_deleted.rs lines 244-254. -/
def readRangeChecked (buffer : Bytes) (off size : Nat) : Option Bytes :=
  if off < buffer.length then some ((buffer.drop off).take (min (off + size) buffer.length - off))
  else none

/-- The part of `read_cell_key_value` after the cell was parsed,
/repo/src/parser_recover_deleted.rs lines 126-137; `slack` is `find_cells_in_slack`. -/
def keepValue (env : Env) (slack : Bytes → Nat → State → Option (Res State)) (kv : KeyValue)
    (cellState : CellState) (force : Bool) (st : State) : Option (Res (Nat × State)) :=
  match slack kv.slack kv.slackOffset st with
  | none => none
  | some .err => some .err
  | some .panic => some .panic
  | some (.ok st) =>
    if force || kv.isFree then
      let v := kv.readValueBytes env.hashFn env.fi
      some (.ok (kv.cellSize,
        { st with deletedValues := mapAdd st.deletedValues [] (.mk { v with cellState } []) }))
    else some (.ok (1, st))

/-- `read_cell_key_value`, /repo/src/parser_recover_deleted.rs lines 117-149. -/
def readCellKeyValue (env : Env) (slack : Bytes → Nat → State → Option (Res State)) (input : Bytes)
    (off : Nat) (cellState : CellState) (force : Bool) (st : State) : Option (Res (Nat × State)) :=
  match KeyValue.fromBytes input off none with
  | .panic => some .panic
  | .err => some (.ok (1, { st with info := st.info.add .WarningRecovery }))
  | .ok (kv, _) => keepValue env slack kv cellState force st

/-- The part of `read_cell_key_node` after the cell was read,
/repo/src/parser_recover_deleted.rs lines 172-184. -/
def keepKey (slack : Bytes → Nat → State → Option (Res State)) (n : Node)
    (cellState : CellState) (force : Bool) (st : State) : Option (Res (Nat × State)) :=
  match slack n.key.slack n.key.slackOffset st with
  | none => none
  | some .err => some .err
  | some .panic => some .panic
  | some (.ok st) =>
    if force || n.key.isFree then
      some (.ok (n.key.cellSize,
        { st with
          deletedKeys := mapAdd st.deletedKeys [] (n.setKey { n.key with cellState }) }))
    else some (.ok (1, st))

/-- `read_cell_key_node`, /repo/src/parser_recover_deleted.rs lines 151-196. -/
def readCellKeyNode (env : Env) (slack : Bytes → Nat → State → Option (Res State)) (input : Bytes)
    (off : Nat) (cellState : CellState) (force : Bool) (st : State) : Option (Res (Nat × State)) :=
  match readFromSlice env st input
      { offset := off, curPath := [], filter := none, selfMatch := true, seq := none,
        getModified := false } with
  | .panic => some .panic
  | .err => some (.ok (1, { st with info := st.info.add .WarningRecovery }))
  | .ok (none, ro) => some (.ok (1, { st with rootOffset := ro }))
  | .ok (some n, ro) => keepKey slack n cellState force { st with rootOffset := ro }

/-- The cell type test of the slack scan, /repo/src/parser_recover_deleted.rs lines 209-238:
what to do with the bytes at `input` (`rest` is `input` after its first four bytes). -/
def slackCell (env : Env) (slack : Bytes → Nat → State → Option (Res State)) (input rest : Bytes)
    (off : Nat) (st : State) : Option (Res (Nat × State)) :=
  if (tag [0x6E, 0x6B] rest).isSome then
    readCellKeyNode env slack input off .DeletedPrimaryFileSlack true st
  else if (tag [0x76, 0x6B] rest).isSome then
    readCellKeyValue env slack input off .DeletedPrimaryFileSlack true st
  else some (.ok (1, st))

/-- The loop of `find_cells_in_slack_internal`, /repo/src/parser_recover_deleted.rs lines 198-241,
from `offset` on; fewer than four bytes end it (the error is dropped by the caller). -/
def slackLoop (env : Env) (slack : Bytes → Nat → State → Option (Res State)) (inputOrig : Bytes)
    (start : Nat) : Nat → Nat → State → Option (Res State)
  | 0, _, _ => none
  | steps + 1, offset, st =>
    if offset < inputOrig.length then
      match leI32 (inputOrig.drop offset) with
      | none => some (.ok st)
      | some (_, rest) =>
        match slackCell env slack (inputOrig.drop offset) rest (start + offset) st with
        | none => none
        | some .err => some .err
        | some .panic => some .panic
        | some (.ok (n, st)) => slackLoop env slack inputOrig start steps (offset + n) st
    else some (.ok st)

/-- `find_cells_in_slack`, /repo/src/parser_recover_deleted.rs lines 112-115. -/
def findCellsInSlack (env : Env) (steps : Nat) : Nat → Bytes → Nat → State → Option (Res State)
  | 0, _, _, _ => some .panic
  | depth + 1, input, start, st =>
    slackLoop env (findCellsInSlack env steps depth) input start steps 0 st

/-- What the bin scan does with a cell of non-zero size, /repo/src/parser_recover_deleted.rs
lines 66-100. -/
def visitCell (env : Env) (steps : Nat) (cellType : CellType) (off sizeAbs : Nat) (st : State) :
    Option (Res State) :=
  let slack := findCellsInSlack env steps env.depth
  match cellType with
  | .CellValue =>
    match readChecked env.fi.buffer off with
    | none => some (.ok st)
    | some input =>
      match readCellKeyValue env slack input off .DeletedPrimaryFile false st with
      | none => none
      | some .err => some .err
      | some .panic => some .panic
      | some (.ok (_, st)) => some (.ok st)
  | .CellKey =>
    match readChecked env.fi.buffer off with
    | none => some (.ok st)
    | some input =>
      match readCellKeyNode env slack input off .DeletedPrimaryFile false st with
      | none => none
      | some .err => some .err
      | some .panic => some .panic
      | some (.ok (_, st)) => some (.ok st)
  | _ =>
    match readRangeChecked env.fi.buffer off sizeAbs with
    | none => some (.ok st)
    | some input => slack input off st

/-- The loop of `find_unused_cells_in_hbin`, /repo/src/parser_recover_deleted.rs lines 53-110;
`input` is what the next cell header is read from: the rest of the file for the first cell, then
as many bytes as the previous cell was long. -/
def binLoop (env : Env) (hbinMax : Nat) : Nat → Bytes → Nat → State → Option (Res (Nat × State))
  | 0, _, _, _ => none
  | steps + 1, input, off, st =>
    if off < hbinMax then
      match leI32 input with
      | none => some .err
      | some (size, rest) =>
        if size = 0 then some (.ok (off, st))
        else
          match visitCell env (steps + 1) (CellType.readCellType rest) off (unsignedAbs size) st with
          | none => none
          | some .err => some .err
          | some .panic => some .panic
          | some (.ok st) =>
            match readRangeChecked env.fi.buffer (off + unsignedAbs size) (unsignedAbs size) with
            | none => some (.ok (off + unsignedAbs size, st))
            | some input => binLoop env hbinMax steps input (off + unsignedAbs size) st
    else some (.ok (off, st))

/-- `find_free_keys_and_values` on one bin with `find_unused_cells_in_hbin`,
/repo/src/parser_recover_deleted.rs lines 35-59. -/
def scanBin (env : Env) (steps off : Nat) (st : State) : Option (Res (Nat × State)) :=
  match readChecked env.fi.buffer off with
  | none => some .err
  | some slice =>
    match HiveBinHeader.fromBytes off slice with
    | none => some .err
    | some (h, rest) =>
      let first := env.fi.buffer.length - rest.length
      match readChecked env.fi.buffer first with
      | none => some .err
      | some input => binLoop env (off + h.size) steps input first st

/-- The bin loop of `Parser::find_free_keys_and_values`, /repo/src/parser.rs lines 156-171; it
compares the absolute file offset with the size of the hive bins data. -/
def scanBins (env : Env) (hiveBinsDataSize : Nat) : Nat → Nat → State → Option (Res State)
  | 0, _, _ => none
  | steps + 1, off, st =>
    if off < hiveBinsDataSize then
      match scanBin env (steps + 1) off st with
      | none => none
      | some .err => some .err
      | some .panic => some .panic
      | some (.ok (off, st)) => scanBins env hiveBinsDataSize steps off st
    else some (.ok st)

/-- `init_recover_deleted`, /repo/src/parser.rs lines 151-171. -/
def initRecoverDeleted (env : Env) (steps hiveBinsDataSize : Nat) (st : State) :
    Option (Res State) :=
  scanBins env hiveBinsDataSize steps env.fi.hbin st

end Notatin
