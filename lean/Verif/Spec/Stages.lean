import Verif.Spec.Replay
import Verif.Spec.Safe
/-
What a hive must not contain while the entries of logs are written over it, for the comparison of its states to be
safe (C86).
-/
namespace Notatin.Spec
open Notatin

/-- The byte at a position; zero behind the end. -/
def byteAt (buf : Bytes) (i : Nat) : Nat := (buf[i]?.getD 0).toNat

/-- Of all that looks like a key, only what lies right behind the header of the first bin has the mark of a root, and
no name has a backslash in it. -/
def OrderlyKeys (buf : Bytes) : Prop :=
  ∀ o, byteAt buf (o + 4) = 0x6E → byteAt buf (o + 5) = 0x6B →
    ((byteAt buf (o + 6)).testBit 2 = true → o = 4128) ∧
    (if (byteAt buf (o + 6)).testBit 5 = true then
      ∀ i, i < byteAt buf (o + 76) + 256 * byteAt buf (o + 77) → byteAt buf (o + 80 + i) ≠ 0x5C
    else
      ∀ i, 2 * i + 1 < byteAt buf (o + 76) + 256 * byteAt buf (o + 77) →
        ¬ (byteAt buf (o + 80 + 2 * i) = 0x5C ∧ byteAt buf (o + 81 + 2 * i) = 0))

/-- A state of the file while entries are written over it one after the other: at first it is the old file, perhaps
with another header on it; each entry makes the file longer by as much as the size it tells exceeds the one in the
header, and then fills in its pages. -/
inductive Stage (old : Bytes) (heads : List Bytes) : List LogEntry → Bytes → Prop
  | start : Stage old heads [] old
  | head (h : Bytes) : h ∈ heads → Stage old heads [] (h ++ old.drop 512)
  | write (es : List LogEntry) (b b' : Bytes) (e : LogEntry) : Stage old heads es b →
      b'.length = b.length + (e.hiveBinsDataSize - u32At b 40) →
      (∀ i, i < b'.length → PageByte 4096 e.dirtyPages i (some (b[i]?.getD 0)) b'[i]?) → Stage old heads (es ++ [e]) b'

/-- Whichever entries of the logs are written over the hive, in their order: what looks like a key is orderly, the
sub-key lists do not nest deeper than the stack has room for, and the stack has room for a call per byte. -/
def CalmStages (old : Bytes) (logs : List TransactionLog) (depth : Nat) : Prop :=
  ∀ es buf, es.Sublist (logs.flatMap (·.entries)) → Stage old (logs.map (·.baseBlockBytes)) es buf →
    OrderlyKeys buf ∧ SaneLists buf depth ∧ buf.length + 4 ≤ depth

end Notatin.Spec
