import Verif.Model.Cli
import Verif.Model.Open
import Verif.Model.Texts
/-
Model of `/repo/bin/reg_dump/main.rs` from the options to the contents of the files written.

Simplified: the command line is parsed already; reading a file that exists never fails; the progress display
and what is printed are dropped.  The files are a parameter; paths are as in Model/Cli.
-/
namespace Notatin

/-- The files by their paths. -/
abbrev Disk := List Str → Option Bytes

/-- The lengths of the files. -/
def Disk.files (disk : Disk) : Files := fun path => (disk path).map List.length

/-- The options, /repo/bin/reg_dump/main.rs lines 86-95. -/
structure DumpOptions where
  filter : Option Str := none
  recover : Bool := false
  recoveredOnly : Bool := false
  full : Bool := false
  skipLogs : Bool := false
  type : OutputType := .Jsonl

/-- The filter of the option `-f`, /repo/bin/reg_dump/main.rs lines 97-105. -/
def dumpFilter : Option Str → Res (Option Filter)
  | none => .ok none
  | some f =>
    match ((({} : FilterBuilder).addKeyPath f).returnChildKeys true).build with
    | .ok q => .ok (some q)
    | .err => .err
    | .panic => .panic

/-- The logs are opened in turn, /repo/src/parser_builder.rs lines 61-64; `none` if one cannot be. -/
def openLogs (disk : Disk) : List (List Str) → Option (List Bytes)
  | [] => some []
  | p :: ps =>
    match disk p with
    | none => none
    | some b =>
      match openLogs disk ps with
      | none => none
      | some bs => some (b :: bs)

/-- `ParserBuilderFromPath::build`, /repo/src/parser_builder.rs lines 60-70, with `FileInfo::from_path`,
/repo/src/file_info.rs lines 28-43, on the options set in /repo/bin/reg_dump/main.rs lines 238-244. -/
def buildFromPath (w : World) (disk : Disk) (input : List Str) (logs : List (List Str))
    (recover full : Bool) : Option (Res HiveParser) :=
  match openLogs disk logs with
  | none => some .err
  | some bs =>
    match disk input with
    | none => some .err
    | some b => ({ primary := b, logs := bs, recover := recover, fullInfo := full } : Builder).build w

/-- What is written: a text, or a workbook with its three sheets. -/
inductive Dumped where
  | text (s : Str)
  | book (items logs overflow : Sheet)

/-- The entries of the log of the parser with their texts, from the `i`-th on. -/
def logPairs (text : Nat → Str) : Nat → List LogCode → List (Str × Str)
  | _, [] => []
  | i, c :: cs => (c.name.toList, text i) :: logPairs text (i + 1) cs

/-- `get_parse_logs`, /repo/src/parser.rs lines 385-387, with `Logs::get`, /repo/src/log.rs lines 51-53. -/
def HiveParser.parseLogs (u : Prints) (p : HiveParser) : List (Str × Str) :=
  match p.state.info.logs with
  | none => []
  | some cs => logPairs (u.logText p.state.info) 0 cs

/-- `Logs::write`, /repo/src/log.rs lines 78-85: the records. -/
def logRecords (logs : List (Str × Str)) : List Str := logs.map fun x => x.1 ++ ' ' :: x.2

/-- The writer for the type, on the keys the iterator yields, /repo/bin/reg_dump/main.rs lines 250-258
(only the first four types can be chosen for `reg_dump`). -/
def writeDump (u : Prints) (o : DumpOptions) (logs : List (Str × Str)) (ns : List Node) : Res Dumped :=
  match o.type with
  | .Xlsx =>
    match writeXlsx u.xlsx o.recoveredOnly logs ns with
    | .ok (items, l, over) => .ok (.book items l over)
    | .err => .err
    | .panic => .panic
  | .Tsv =>
    .ok (.text (fileText
      (writeTsv (tsvKeyCols u.tsv) (tsvValueCols u.tsv) o.recoveredOnly (logRecords logs) ns)))
  | .Common =>
    match writeCommon keyTime ns with
    | .ok rs => .ok (.text (fileText rs))
    | .err => .err
    | .panic => .panic
  | _ =>
    match writeJson u.json o.full ns with
    | .ok rs => .ok (.text (fileText rs))
    | .err => .err
    | .panic => .panic

/-- `reg_dump`, /repo/bin/reg_dump/main.rs lines 228-261: what is written, when all of it can be (see
`bufferedFile` in Model/Files for files that cannot hold all).  The writers iterate with `ParserIterator::new` and
`with_filter`, /repo/bin/reg_dump/json_writer.rs lines 37-40, /repo/bin/reg_dump/tsv_writer.rs lines 50-53; at
most `steps` rounds. -/
def regDump (w : World) (steps : Nat) (u : Prints) (disk : Disk) (o : DumpOptions) (filter : Option Filter)
    (input : List Str) (logs : Option (List (List Str))) : Option (Res Dumped) :=
  match buildFromPath w disk input (logs.getD []) o.recover o.full with
  | none => none
  | some .err => some .err
  | some .panic => some .panic
  | some (.ok p) =>
    match p.iterate steps (filter.getD {}) with
    | none => none
    | some .err => some .err
    | some .panic => some .panic
    | some (.ok ns) => some (writeDump u o (p.parseLogs u) ns)

/-- `process_file`, /repo/bin/reg_dump/main.rs lines 132-158. -/
def processFile (w : World) (steps : Nat) (u : Prints) (disk : Disk) (o : DumpOptions)
    (filter : Option Filter) (input : List Str) : Option (Res Dumped) :=
  match input.getLast? with
  | none => some .panic
  | some name => regDump w steps u disk o filter input (getLogFiles disk.files o.skipLogs name input)

/-- `main` without `--recurse`, /repo/bin/reg_dump/main.rs lines 97-129. -/
def dumpFile (w : World) (steps : Nat) (u : Prints) (disk : Disk) (o : DumpOptions) (input : List Str) :
    Option (Res Dumped) :=
  match dumpFilter o.filter with
  | .err => some .err
  | .panic => some .panic
  | .ok filter => processFile w steps u disk o filter input

end Notatin
