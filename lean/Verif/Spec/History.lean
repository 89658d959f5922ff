import Verif.Props.Values
/-
The states a hive goes through while a log is replayed, described by what is stored in them.
-/
namespace Notatin.Spec
open Notatin

/-- A state of the file: the number of the entry that made it (0 for the file itself), its bytes, and what is
stored in it. -/
structure FileState where
  seq : Nat
  buf : Bytes
  tree : Tree
  vals : Nat → List Val

/-- The keys of a state: offset and path. -/
def FileState.keys (s : FileState) : List (Nat × Str) := s.tree.pre []

/-- The paths of a state. -/
def FileState.paths (s : FileState) : List Str := s.keys.map Prod.snd

/-- An ordinary hive: keys and values are stored as described, no two keys have the same path, no two values
of a key the same name, no name of a key contains a backslash, the root and nothing else is marked as root,
and the stack has room for the longest path. -/
structure Ordinary (w : World) (s : FileState) : Prop where
  stored : StoredHive w s.buf s.tree s.vals
  paths : s.paths.Nodup
  names : s.tree.Every fun u => '\\' ∉ u.name
  valueNames : s.tree.Every fun u => ((s.vals u.off).map Val.name).Nodup
  root : s.tree.cell.flags.testBit 2 = true
  inner : EveryAll (fun u => u.cell.flags.testBit 2 = false) s.tree.kids
  short : ∀ e ∈ s.keys, e.2.length + 1 < w.depth

/-- The key was there in the state `a` and is no longer there in the state `b`. -/
def Lost (a b : FileState) (key : Nat × Str) : Prop := key ∈ a.keys ∧ key.2 ∉ b.paths

/-- `n` tells the lost key: where it was, its path, its name, time, flags and access bits as last stored, that
it was deleted in a transaction log, and the number of the entry that took it away. -/
def TellsLost (a b : FileState) (key : Nat × Str) (n : Node) : Prop :=
  (∃ u ∈ a.tree.nodes, u.off = key.1 ∧ n.key.name = u.name ∧ n.key.lastWritten = u.cell.lastWritten ∧
    n.key.flagBits = u.cell.flags ∧ n.key.accessBits = u.cell.access) ∧
  n.key.fileOffset = key.1 ∧ n.key.path = key.2 ∧ n.key.cellState = .DeletedTransactionLog ∧
  n.key.updatedBySeq = some b.seq

/-- Of the keys above this path, one other than the root is still there. -/
def BelowSurvivor (last : FileState) (path : Str) : Prop :=
  ∃ e ∈ last.keys, e.2 ≠ '\\' :: last.tree.name ∧ ∃ r, path = e.2 ++ '\\' :: r

/-- The steps of a history. -/
def steps : List FileState → List (FileState × FileState)
  | a :: b :: rest => (a, b) :: steps (b :: rest)
  | _ => []

/-- The entry's pages fit into the file, and `new` is the file `old` with them written over it. -/
def Written (e : LogEntry) (old new : Bytes) : Prop :=
  pagesFit 4096 e.dirtyPages old.length ∧ new.length = old.length ∧
    ∀ i, i < old.length → PageByte 4096 e.dirtyPages i old[i]? new[i]?

/-- The states after the entries, one after the other.  `size` is the size of the hive bins in the state `a`; when
an entry makes them larger, the file grows by as much before its pages are written. -/
def Replays : Nat → List LogEntry → FileState → List FileState → Prop
  | _, [], _, [] => True
  | size, e :: es, a, b :: rest =>
    b.seq = e.seq ∧ Written e (a.buf ++ List.replicate (e.hiveBinsDataSize - size) 0) b.buf ∧
      Replays (max size e.hiveBinsDataSize) es b rest
  | _, _, _, _ => False

/-- No key that is lost is there again later. -/
def NoReturn : List FileState → Prop
  | a :: b :: rest => (∀ key, Lost a b key → ∀ s ∈ rest, key.2 ∉ s.paths) ∧ NoReturn (b :: rest)
  | _ => True

/-- No key is ever where one of its sub-keys was or will be. -/
def Apart (states : List FileState) : Prop :=
  ∀ s ∈ states, ∀ t ∈ states, ∀ key ∈ s.keys, ∀ sub ∈ t.keys, ∀ name, sub.2 = key.2 ++ '\\' :: name →
    '\\' ∉ name → key.1 ≠ sub.1

/-- A dirty hive as it is given to the builder: intact header with different sequence numbers, supported type,
logs as Windows writes them, one of them at least as new as the hive. -/
structure DirtyHive (b : Builder) (bb : BaseBlock) (logs : List TransactionLog) : Prop where
  logsRead : ∃ warn, TransactionLog.parse b.logs = .ok (logs, warn)
  header : ∃ rest, BaseBlock.fromBytes b.primary = .ok (bb, rest)
  supported : bb.base.fileType ≠ .unknown
  checksum : calculateChecksum (b.primary.take 512) = .ok bb.base.checksum
  dirty : bb.base.primarySeq ≠ bb.base.secondarySeq
  counted : 0 < bb.base.secondarySeq
  sound : ∀ l ∈ logs, SoundLog l
  fresh : ∃ l ∈ logs, bb.base.secondarySeq ≤ l.base.primarySeq

/-- The scan of the file as given finds nothing deleted. -/
def NothingDeleted (w : World) (primary : Bytes) (bins : Nat) : Prop :=
  ∃ N st, State.Plain st ∧ ∀ steps, N ≤ steps → initRecoverDeleted (w.env primary) steps bins {} = some (.ok st)

/-- The history of a dirty hive that is opened with recovery: it is given in the state `a`, without deleted
items; the entries taken from the logs carry it through the states `later`, all of them ordinary; no key that is
lost comes back, and no key is ever where a sub-key was. -/
structure History (w : World) (b : Builder) (a : FileState) (later : List FileState) : Prop where
  recover : b.recover = true
  given : a.buf = b.primary
  replay : ∃ bb logs, DirtyHive b bb logs ∧ NothingDeleted w b.primary bb.base.hiveBinsDataSize ∧
    Replays bb.base.hiveBinsDataSize ((takenLogs bb.base.secondarySeq 0 logs).flatMap (·.entries)) a later
  states : ∀ s ∈ a :: later, Ordinary w s ∧ s.tree.name = a.tree.name
  noReturn : NoReturn (a :: later)
  apart : Apart (a :: later)

end Notatin.Spec
