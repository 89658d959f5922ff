import Verif.Model.BaseBlock
import Verif.Model.Marvin
/-
Model of the log parsing half of `/repo/src/transaction_log.rs` (lines 40-220).
-/
namespace Notatin

/-- `DirtyPage`, /repo/src/transaction_log.rs lines 58-61. -/
structure DirtyPage where
  offset : Nat
  bytes : Bytes
deriving DecidableEq, Repr

/-- `LogEntry`, /repo/src/transaction_log.rs lines 69-87. -/
structure LogEntry where
  fileOffset : Nat
  size : Nat
  flags : Nat
  seq : Nat
  hiveBinsDataSize : Nat
  dirtyPagesCount : Nat
  hash1 : Nat
  hash2 : Nat
  dirtyPages : List DirtyPage
  hasValidHashes : Bool
deriving DecidableEq, Repr

/-- `DEFAULT_SEED`, /repo/src/transaction_log.rs line 89. -/
def defaultSeed : BitVec 64 := 0x82EF4D887A4E55C5#64

/-- `DirtyPageRef::from_bytes`, /repo/src/transaction_log.rs lines 48-54. -/
def dirtyPageRef (input : Bytes) : Option ((Nat × Nat) × Bytes) := do
  let (offset, input) ← leU32 input
  let (size, input) ← leU32 input
  some ((offset, size), input)

/-- The page loop of `from_bytes_internal`, /repo/src/transaction_log.rs lines 111-119. -/
def readPages : List (Nat × Nat) → Bytes → Option (List DirtyPage × Bytes)
  | [], input => some ([], input)
  | (offset, size) :: refs, input => do
    let (bytes, input) ← take size input
    let (pages, input) ← readPages refs input
    some (⟨offset, bytes⟩ :: pages, input)

/-- `calc_hash1`, /repo/src/transaction_log.rs lines 148-155; `len - 40` underflows (panic; in a
release build the huge allocation panics) and `raw_bytes[40..len]` may be out of range. -/
def calcHash1 (raw : Bytes) (len : Nat) : Res Nat :=
  if len < 40 then .panic
  else match getRange raw 40 len with
    | none => .panic
    | some src => .ok (marvin32 defaultSeed src).toNat

/-- `calc_hash2`, /repo/src/transaction_log.rs lines 157-164. -/
def calcHash2 (raw : Bytes) : Res Nat :=
  match getRange raw 0 32 with
  | none => .panic
  | some src => .ok (marvin32 defaultSeed src).toNat

/-- `tag("HvLE")`. -/
def hvle : Bytes := [0x48, 0x76, 0x4C, 0x45]

/-- `LogEntry::from_bytes_internal`, /repo/src/transaction_log.rs lines 96-142. `pos` is the
offset of `input` in the log file (pointer difference in the source). -/
def LogEntry.fromBytes (pos : Nat) (start : Bytes) : Res (LogEntry × Bytes) := do
  let (_, input) ← Res.ofOption (tag hvle start)
  let (size, input) ← Res.ofOption (leU32 input)
  let (flags, input) ← Res.ofOption (leU32 input)
  let (seq, input) ← Res.ofOption (leU32 input)
  let (hiveBinsDataSize, input) ← Res.ofOption (leU32 input)
  let (dirtyPagesCount, input) ← Res.ofOption (leU32 input)
  let (hash1, input) ← Res.ofOption (leU64 input)
  let (hash2, input) ← Res.ofOption (leU64 input)
  let (refs, input) ← Res.ofOption (count dirtyPageRef dirtyPagesCount input)
  let (dirtyPages, input) ← Res.ofOption (readPages refs input)
  let (_, input) ← Res.ofOption (eatRemaining input size (start.length - input.length))
  let h1 ← calcHash1 start size
  let h2 ← calcHash2 start
  .ok ({ fileOffset := pos, size, flags, seq, hiveBinsDataSize, dirtyPagesCount, hash1, hash2,
         dirtyPages, hasValidHashes := hash1 == h1 && hash2 == h2 }, input)

/-- `nom::multi::many0(LogEntry::from_bytes(..))`, /repo/src/transaction_log.rs lines 179-180:
stops at the first `Err::Error`; a parser that consumes nothing is an error. -/
def logEntries (pos : Nat) (input : Bytes) : Res (List LogEntry × Bytes) :=
  match LogEntry.fromBytes pos input with
  | .err => .ok ([], input)
  | .panic => .panic
  | .ok (e, rest) =>
    if _h : rest.length < input.length then
      match logEntries (pos + (input.length - rest.length)) rest with
      | .ok (es, rest) => .ok (e :: es, rest)
      | .err => .err
      | .panic => .panic
    else .err
termination_by input.length

/-- `TransactionLog`, /repo/src/transaction_log.rs lines 168-172. -/
structure TransactionLog where
  base : BaseBlockBase
  baseBlockBytes : Bytes
  entries : List LogEntry
deriving DecidableEq, Repr

/-- `TransactionLog::from_bytes`, /repo/src/transaction_log.rs lines 175-189. -/
def TransactionLog.fromBytes (input : Bytes) : Res (TransactionLog × Bytes) := do
  let (base, rest) ← BaseBlockBase.fromBytes input
  let (entries, rest) ← logEntries (input.length - rest.length) rest
  -- `start[..512]`
  match getRange input 0 512 with
  | none => .panic
  | some baseBlockBytes => .ok ({ base, baseBlockBytes, entries }, rest)

/-- The read loop of `TransactionLog::parse`, /repo/src/transaction_log.rs lines 194-212.
A log file is its content (`read_to_end` is assumed to succeed). -/
def readLogs : List Bytes → Logs → Res (List TransactionLog × Logs)
  | [], logs => .ok ([], logs)
  | f :: fs, logs =>
    if f.isEmpty then readLogs fs (logs.add .WarningParse)
    else match TransactionLog.fromBytes f with
      | .ok (log, _) =>
        match readLogs fs logs with
        | .ok (ls, logs) => .ok (log :: ls, logs)
        | .err => .err
        | .panic => .panic
      | .err => readLogs fs (logs.add .WarningParse)
      | .panic => .panic

/-- The order used by `sort_by`, /repo/src/transaction_log.rs lines 214-218. -/
def TransactionLog.le (a b : TransactionLog) : Bool := decide (a.base.primarySeq ≤ b.base.primarySeq)

/-- `TransactionLog::parse`, /repo/src/transaction_log.rs lines 191-220 (`sort_by` is a stable
sort, here core's stable `mergeSort`). -/
def TransactionLog.parse (files : List Bytes) : Res (List TransactionLog × Option Logs) :=
  match readLogs files {} with
  | .ok (ls, logs) => .ok (ls.mergeSort TransactionLog.le, logs.getOption)
  | .err => .err
  | .panic => .panic

end Notatin
