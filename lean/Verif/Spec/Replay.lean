import Verif.Model.TxLog
/-
What replaying a transaction log means, independent of the replay code: which entries count and
what each byte of the hive is afterwards.
-/
namespace Notatin.Spec
open Notatin

/-- Page `p` covers buffer position `i` when hive bins start at `off`. -/
def covers (off : Nat) (p : DirtyPage) (i : Nat) : Prop :=
  off + p.offset ≤ i ∧ i < off + p.offset + p.bytes.length

/-- `new` is the right content of position `i` after writing `pages` in order over a buffer that
held `old` there: that of the last page covering `i`, or the old one. -/
def PageByte (off : Nat) (pages : List DirtyPage) (i : Nat) (old new : Option UInt8) : Prop :=
  (∃ before p after, pages = before ++ p :: after ∧ covers off p i ∧ (∀ q ∈ after, ¬ covers off q i) ∧
    new = p.bytes[i - (off + p.offset)]?) ∨
  ((∀ q ∈ pages, ¬ covers off q i) ∧ new = old)

/-- All pages lie inside the hive bins of a buffer of length `n`. -/
def pagesFit (off : Nat) (pages : List DirtyPage) (n : Nat) : Prop :=
  ∀ p ∈ pages, off + p.offset + p.bytes.length ≤ n

/-- `A` is a run of entries with sequence numbers increasing by one. -/
def Consecutive : List LogEntry → Prop
  | [] => True
  | [_] => True
  | a :: b :: rest => b.seq = a.seq + 1 ∧ Consecutive (b :: rest)

/-- `A` is the run of entries of a log that recovery has to apply to a hive whose secondary
sequence number is `sec`: among the entries before the first one with bad hashes and not older
than `sec`, the longest prefix of entries with a legal bin size and consecutive numbers. -/
def AppliedRun (sec : Nat) (entries A : List LogEntry) : Prop :=
  ∃ rest, (entries.takeWhile (·.hasValidHashes)).filter (fun e => decide (sec ≤ e.seq)) = A ++ rest ∧
    (∀ e ∈ A, e.hiveBinsDataSize % 4096 = 0) ∧ Consecutive A ∧
    (∀ n, rest.head? = some n →
      n.hiveBinsDataSize % 4096 ≠ 0 ∨ ∃ l, A.getLast? = some l ∧ n.seq ≠ l.seq + 1)

/-- Number of the last entry of a run, `d` if there is none. -/
def lastSeq (d : Nat) (A : List LogEntry) : Nat := (A.getLast?.map (·.seq)).getD d

/-- Which of the given logs are taken, `n` being the number of the last entry so far (0: none yet): a log whose
number is below `sec` is passed over, the first other one is taken, and after that those which continue. -/
def takenLogs (sec : Nat) : Nat → List TransactionLog → List TransactionLog
  | _, [] => []
  | n, l :: logs =>
    if sec ≤ l.base.primarySeq ∧ (n = 0 ∨ l.base.primarySeq = n + 1) then
      l :: takenLogs sec (lastSeq 0 l.entries) logs
    else takenLogs sec n logs

end Notatin.Spec
