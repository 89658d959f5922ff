import Verif.Model.TxLog
/-
Model of the replay of transaction logs: `/repo/src/transaction_log.rs` lines 223-323
(`update_parser`) and `/repo/src/parser.rs` lines 98-140, 173-309.

The recovery analysis (`TransactionAnalyzer`, run only with `recover_deleted`) reads the buffers
before and after an entry and changes only the recovery state and the item map, never the buffer
or the sequence numbers; it is a parameter `analyze` on an arbitrary recovery state `σ` here and
modelled separately in `Model/Analyzer.lean`.
-/
namespace Notatin

/-- `buffer.get_mut(off..off+src.len())` followed by `copy_from_slice(src)`; `none` if the range
is not inside the buffer. -/
def writeAt (buf : Bytes) (off : Nat) (src : Bytes) : Option Bytes :=
  if off + src.length ≤ buf.length then
    some (buf.take off ++ src ++ buf.drop (off + src.length))
  else none

/-- The dirty page loop, /repo/src/transaction_log.rs lines 275-287. -/
def applyPages (hbinOffset : Nat) : List DirtyPage → Bytes → Res Bytes
  | [], buf => .ok buf
  | p :: ps, buf =>
    match writeAt buf (p.offset + hbinOffset) p.bytes with
    | none => .err
    | some buf => applyPages hbinOffset ps buf

/-- `buffer.resize(..)`, /repo/src/transaction_log.rs lines 258-265. -/
def growBuffer (binsSize entryBinsSize : Nat) (buf : Bytes) : Bytes :=
  if binsSize < entryBinsSize then buf ++ List.replicate (entryBinsSize - binsSize) 0 else buf

/-- Applying one entry: grow, then copy the dirty pages. -/
def applyEntry (hbinOffset binsSize : Nat) (e : LogEntry) (buf : Bytes) : Res Bytes :=
  applyPages hbinOffset e.dirtyPages (growBuffer binsSize e.hiveBinsDataSize buf)

/-- What the entry loop of `update_parser` threads. -/
structure ReplayState (σ : Type) where
  newSeq : Nat
  buffer : Bytes
  info : Logs
  recovery : σ

/-- The entry loop of `update_parser`, /repo/src/transaction_log.rs lines 231-321.
`analyze prior seq new s` stands for lines 267-271 and 289-314.  `new_sequence_number + 1`
overflows (panics in a debug build) at `u32::MAX`. -/
def updateEntries {σ : Type} (analyze : Bytes → Nat → Bytes → σ → σ) (hbinOffset secSeq binsSize : Nat) :
    List LogEntry → ReplayState σ → Res (ReplayState σ)
  | [], st => .ok st
  | e :: es, st =>
    if e.hasValidHashes then
      if e.seq < secSeq then
        updateEntries analyze hbinOffset secSeq binsSize es
          { st with info := st.info.add .WarningTransactionLog }
      else if e.hiveBinsDataSize % 4096 ≠ 0 then
        .ok { st with info := st.info.add .WarningTransactionLog }
      else if st.newSeq ≠ 0 ∧ st.newSeq + 1 ≥ 4294967296 then .panic
      else if st.newSeq ≠ 0 ∧ e.seq ≠ st.newSeq + 1 then
        .ok { st with info := st.info.add .WarningTransactionLog }
      else
        match applyEntry hbinOffset binsSize e st.buffer with
        | .ok buf =>
          updateEntries analyze hbinOffset secSeq binsSize es
            { st with newSeq := e.seq, buffer := buf,
                      recovery := analyze (growBuffer binsSize e.hiveBinsDataSize st.buffer)
                        e.seq buf st.recovery }
        | .err => .err
        | .panic => .panic
    else .ok { st with info := st.info.add .WarningTransactionLog }

/-- The part of `Parser` (/repo/src/parser.rs lines 46-54) that opening a hive works on. -/
structure Hive (σ : Type) where
  buffer : Bytes
  hbinOffset : Nat
  baseBlock : BaseBlock
  info : Logs
  recovery : σ

/-- `init_base_block` and `check_base_block`, /repo/src/parser.rs lines 98-140: parses the header,
returns it with the offset of the hive bins and `(is_supported_format, has_bad_checksum)`. -/
def initBaseBlock (buffer : Bytes) (info : Logs) :
    Res (BaseBlock × Nat × Bool × Bool × Logs) := do
  let (bb, rest) ← BaseBlock.fromBytes buffer
  let off := buffer.length - rest.length
  if bb.base.fileType ≠ .unknown then
    let info := if bb.base.primarySeq ≠ bb.base.secondarySeq then info.add .WarningBaseBlock else info
    -- `&buffer[..0x200]`
    match getRange buffer 0 0x200 with
    | none => .panic
    | some head =>
      let checksum ← calculateChecksum head
      if checksum ≠ bb.base.checksum then .ok (bb, off, true, true, info.add .WarningBaseBlock)
      else .ok (bb, off, true, false, info)
  else .ok (bb, off, false, false, info.add .WarningBaseBlock)

/-- Re-reading the header of a hive in place. -/
def Hive.reinit {σ : Type} (h : Hive σ) : Res (Hive σ) := do
  let (bb, off, _, _, info) ← initBaseBlock h.buffer h.info
  .ok { h with baseBlock := bb, hbinOffset := off, info := info }

/-- `handle_bad_checksum`, /repo/src/parser.rs lines 195-224.  `debug_assert!(len <= 2)` is not
modelled (release semantics).  `logs` empty is the `expect` panic. -/
def handleBadChecksum {σ : Type} (h : Hive σ) (logs : List TransactionLog) :
    Res (Hive σ × List TransactionLog) :=
  let info := h.info.add .WarningBaseBlock
  match logs.getLast? with
  | none => .panic
  | some newest =>
    match getRange h.buffer 0 512 with
    | none => .err
    | some _ =>
      -- `copy_from_slice` panics unless the lengths agree
      if newest.baseBlockBytes.length ≠ 512 then .panic
      else
        let buffer := newest.baseBlockBytes ++ h.buffer.drop 512
        let logs := if logs.length > 1 then logs.drop 1 else logs
        match Hive.reinit { h with buffer := buffer, info := info } with
        | .ok h => .ok (h, logs)
        | .err => .err
        | .panic => .panic

/-- `prepare_transaction_logs`, /repo/src/parser.rs lines 173-193. -/
def prepareLogs {σ : Type} (h : Hive σ) (hasBadChecksum : Bool) (logs : List TransactionLog) :
    Res (Bool × Hive σ × List TransactionLog) := do
  let (h, logs) ← if hasBadChecksum then handleBadChecksum h logs else .ok (h, logs)
  if h.baseBlock.base.primarySeq = h.baseBlock.base.secondarySeq then
    .ok (false, { h with info := h.info.add .WarningTransactionLog }, logs)
  else .ok (true, h, logs)

/-- `update_header_after_transaction_logs`, /repo/src/parser.rs lines 226-256, on the buffer:
writes of the two sequence numbers and the checksum (out of range indexing panics). -/
def rewriteHeader (buffer : Bytes) (newSeq : Nat) : Res Bytes :=
  match writeAt buffer 4 (u32ToLeBytes newSeq) with
  | none => .panic
  | some b1 =>
    match writeAt b1 8 (u32ToLeBytes newSeq) with
    | none => .panic
    | some b2 =>
      match getRange b2 0 0x200 with
      | none => .panic
      | some head =>
        match calculateChecksum head with
        | .ok sum =>
          match writeAt b2 508 (u32ToLeBytes sum) with
          | none => .panic
          | some b3 => .ok b3
        | .err => .err
        | .panic => .panic

/-- `update_header_after_transaction_logs`, /repo/src/parser.rs lines 226-256. -/
def updateHeader {σ : Type} (h : Hive σ) (newSeq : Nat) : Res (Hive σ) := do
  let buffer ← rewriteHeader h.buffer newSeq
  let h ← Hive.reinit { h with buffer := buffer }
  .ok { h with info := h.info.add .Info }

/-- `update_parser` on a whole log, /repo/src/transaction_log.rs lines 223-323: uses the header
currently stored in the parser. -/
def updateParser {σ : Type} (analyze : Bytes → Nat → Bytes → σ → σ) (h : Hive σ)
    (log : TransactionLog) : Res (Nat × Hive σ) :=
  match updateEntries analyze h.hbinOffset h.baseBlock.base.secondarySeq
      h.baseBlock.base.hiveBinsDataSize log.entries
      { newSeq := 0, buffer := h.buffer, info := h.info, recovery := h.recovery } with
  | .ok st => .ok (st.newSeq, { h with buffer := st.buffer, info := st.info, recovery := st.recovery })
  | .err => .err
  | .panic => .panic

/-- The log loop of `apply_transaction_logs`, /repo/src/parser.rs lines 279-305. -/
def applyLogs {σ : Type} (analyze : Bytes → Nat → Bytes → σ → σ) (secSeq : Nat) :
    List TransactionLog → Nat → Hive σ → Res (Nat × Hive σ)
  | [], newSeq, h => .ok (newSeq, h)
  | log :: logs, newSeq, h =>
    if log.base.primarySeq ≥ secSeq then
      if newSeq ≠ 0 ∧ newSeq + 1 ≥ 4294967296 then .panic
      else if newSeq = 0 ∨ log.base.primarySeq = newSeq + 1 then
        match updateParser analyze h log with
        | .ok (newSeq, h) => applyLogs analyze secSeq logs newSeq h
        | .err => .err
        | .panic => .panic
      else
        applyLogs analyze secSeq logs newSeq { h with info := h.info.add .WarningTransactionLog }
    else
      applyLogs analyze secSeq logs newSeq { h with info := h.info.add .WarningTransactionLog }

/-- `apply_transaction_logs`, /repo/src/parser.rs lines 258-309.  `initItems` stands for
`TransactionLog::get_reg_items(self, 0)` (line 268). -/
def applyTransactionLogs {σ : Type} (analyze : Bytes → Nat → Bytes → σ → σ)
    (initItems : Bytes → σ → Res σ) (h : Hive σ) (hasBadChecksum : Bool)
    (logs : List TransactionLog) : Res (Hive σ) :=
  if logs.isEmpty then .ok h
  else
    match prepareLogs h hasBadChecksum logs with
    | .err => .err
    | .panic => .panic
    | .ok (false, h, _) => .ok h
    | .ok (true, h, logs) =>
      match initItems h.buffer h.recovery with
      | .err => .err
      | .panic => .panic
      | .ok s =>
        match applyLogs analyze h.baseBlock.base.secondarySeq logs 0 { h with recovery := s } with
        | .ok (newSeq, h) => updateHeader h newSeq
        | .err => .err
        | .panic => .panic

/-- `Parser::init` up to (not including) `init_root`, /repo/src/parser.rs lines 57-71.  `scan`
stands for `init_recover_deleted` (identity when recovery is off).  `none` in the result means
the format is unsupported and nothing more is read. -/
def openHive {σ : Type} (analyze : Bytes → Nat → Bytes → σ → σ) (initItems : Bytes → σ → Res σ)
    (scan : Bytes → BaseBlock → σ → Res σ) (buffer : Bytes) (s0 : σ) (logs : List TransactionLog) :
    Res (Bool × Hive σ) := do
  let (bb, off, supported, bad, info) ← initBaseBlock buffer {}
  let h : Hive σ := { buffer, hbinOffset := off, baseBlock := bb, info, recovery := s0 }
  if supported then
    let s ← scan buffer bb s0
    let h ← applyTransactionLogs analyze initItems { h with recovery := s } bad logs
    .ok (true, h)
  else .ok (false, h)

end Notatin
