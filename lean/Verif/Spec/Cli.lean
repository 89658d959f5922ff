import Verif.Model.Cli
import Verif.Spec.Tree
/-
What the command line tools should do with names of files, said without the model's helpers.
-/
namespace Notatin.Spec
open Notatin

/-! ### C38: the logs of a primary file -/

/-- The names of the files in a folder, and when two names mean the same file. -/
structure Folder where
  names : List Str
  same : Str → Str → Prop

/-- The file system shows the folder at this path. -/
def Folder.At (d : Folder) (fs : Files) (path : List Str) : Prop :=
  ∀ n, (fs (path ++ [n])).isSome = true ↔ ∃ e ∈ d.names, d.same e n

/-- Names are told apart by their characters. -/
def Folder.CaseSensitive (d : Folder) : Prop := ∀ a b, d.same a b ↔ a = b

/-- Names that differ in case only mean the same file (and maybe further ones do). -/
def Folder.CaseInsensitive (d : Folder) : Prop :=
  Equivalence d.same ∧ ∀ a b, SameIgnoringCase a b → d.same a b

/-- The name is the one of the log with this extension, whatever the case. -/
def IsLog (primary ext : Str) (name : Str) : Prop := SameIgnoringCase name (primary ++ '.' :: ext)

/-- How Windows itself spells the name of the primary in the names of its logs: it writes the logs of
`NTUSER.DAT` as `ntuser.dat.LOG1`, those of `UsrClass.DAT` as `UsrClass.dat.LOG1`. -/
def windowsSpelling (primary : Str) : Str :=
  if primary = "NTUSER.DAT".toList then "ntuser.dat".toList
  else if primary = "UsrClass.DAT".toList then "UsrClass.dat".toList
  else primary

/-- The path means a file of the folder that is the log with this extension. -/
def Folder.LogAt (d : Folder) (path : List Str) (primary ext : Str) (log : List Str) : Prop :=
  ∃ n, log = path ++ [n] ∧ ∃ e ∈ d.names, d.same e n ∧ ∃ e', d.same e e' ∧ IsLog primary ext e'

/-- All logs are found, the first before the second, and nothing else: `found` has a path for
`.LOG1` if the folder has such a file, and likewise for `.LOG2`. -/
def Folder.LogsFound (d : Folder) (path : List Str) (primary : Str) (found : List (List Str)) : Prop :=
  ∃ l1 l2, found = l1 ++ l2 ∧ l1.length ≤ 1 ∧ l2.length ≤ 1 ∧
    (∀ l ∈ l1, d.LogAt path primary "LOG1".toList l) ∧
    (∀ l ∈ l2, d.LogAt path primary "LOG2".toList l) ∧
    (l1 = [] → ∀ e ∈ d.names, ¬ IsLog primary "LOG1".toList e) ∧
    (l2 = [] → ∀ e ∈ d.names, ¬ IsLog primary "LOG2".toList e)

/-! ### C38: a list of files in one text -/

/-- The text is the name with white space around it and quotes within that. -/
def Decorated (text name : Str) : Prop :=
  ∃ w1 q1 q2 w2, text = w1 ++ q1 ++ name ++ q2 ++ w2 ∧
    (∀ c ∈ w1 ++ w2, isWhitespace c = true) ∧ ∀ c ∈ q1 ++ q2, c = '\''

/-- The name neither begins nor ends with white space or a quote. -/
def Plain (name : Str) : Prop :=
  ∀ c, name.head? = some c ∨ name.getLast? = some c → isWhitespace c = false ∧ c ≠ '\''

/-- The texts with commas between them. -/
def commaList : List Str → Str
  | [] => []
  | [c] => c
  | c :: cs => c ++ ',' :: commaList cs

/-- The name ends with `.log1` or `.log2`, whatever the case. -/
def NamesLog (name : Str) : Prop :=
  ∃ stem ext, name = stem ++ ext ∧
    (SameIgnoringCase ext ".log1".toList ∨ SameIgnoringCase ext ".log2".toList)

/-! ### C50, C51: walking over a folder -/

/-- The names the standard hives of Windows have. -/
def standardNames : List Str :=
  ["SAM", "SECURITY", "SOFTWARE", "SYSTEM", "DEFAULT", "Amcache.hve", "NTUSER.DAT", "UsrClass.dat"].map
    String.toList

/-- The file at the path has a standard name, whatever the case, and is not empty. -/
def IsHive (fs : Files) (path : List Str) : Prop :=
  (∃ f ∈ standardNames, ∃ n, path.getLast? = some n ∧ SameIgnoringCase n f) ∧ ∃ k, fs path = some (k + 1)

/-- Every file that could be exported has its export in the output folder. -/
def AllExported (dump : List Str → Option (List (List Str)) → Option Str) (jobs : List Job)
    (out : Str → Option Str) : Prop :=
  ∀ j ∈ jobs, ∀ text, dump j.input j.logs = some text → out j.output = some text

end Notatin.Spec
