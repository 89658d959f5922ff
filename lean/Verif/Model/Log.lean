import Verif.Model.Base
/-
Model of `/repo/src/log.rs`.  A log entry is its `LogCode`; the message text is dropped
(so `prepend_all`, lines 63-69, is the identity and is not modelled).
-/
namespace Notatin

/-- `LogCode`, /repo/src/log.rs lines 104-118. -/
inductive LogCode where
  | WarningOther | WarningNom | WarningConversion | WarningContent | WarningBigDataContent
  | WarningUnrecognizedBitflag | WarningTransactionLog | WarningIterator | WarningBaseBlock
  | WarningParse | WarningRecovery | Info
deriving Repr, DecidableEq

/-- `Logs`, /repo/src/log.rs lines 22-25. -/
structure Logs where
  logs : Option (List LogCode) := none
deriving Repr, DecidableEq

namespace Logs

/-- `Logs::add` / `add_internal`, /repo/src/log.rs lines 28-40. -/
def add (l : Logs) (c : LogCode) : Logs :=
  match l.logs with
  | some ls => { logs := some (ls ++ [c]) }
  | none => { logs := some [c] }

/-- `Logs::has_logs`, /repo/src/log.rs lines 42-49. -/
def hasLogs (l : Logs) : Bool :=
  match l.logs with
  | some ls => !ls.isEmpty
  | none => false

/-- `Logs::get_option`, /repo/src/log.rs lines 55-61. -/
def getOption (l : Logs) : Option Logs :=
  match l.logs with
  | none => none
  | some _ => some l

/-- `Logs::extend`, /repo/src/log.rs lines 71-76. -/
def extend (l : Logs) (additional : Logs) : Logs :=
  match l.logs with
  | some ls => { logs := some (ls ++ additional.logs.getD []) }
  | none => { logs := some (additional.logs.getD []) }

/-- The list of recorded codes, in order (observation used in statements). -/
def codes (l : Logs) : List LogCode := l.logs.getD []

@[simp] theorem codes_add (l : Logs) (c : LogCode) : (l.add c).codes = l.codes ++ [c] := by
  unfold add codes; split <;> simp_all

@[simp] theorem codes_extend (l m : Logs) : (l.extend m).codes = l.codes ++ m.codes := by
  unfold extend codes; split <;> simp_all

@[simp] theorem codes_empty : (Logs.mk none).codes = [] := rfl

end Logs
end Notatin
