import Verif.Model.Filter
/-
Model of `/repo/src/cli_util.rs` and of the walk over folders in `/repo/bin/reg_dump/main.rs` and
`/repo/bin/reg_compare.rs`.

Simplified: a path is the list of its components, all of them ordinary names in UTF-8 (no `..`, no
prefix, no separators within a component); the file system is a parameter.
-/
namespace Notatin

/-- The file a path leads to: none, or a file with its length (`Path::is_file`, `Path::metadata`).
Folders and paths that cannot be read are `none`. -/
abbrev Files := List Str → Option Nat

/-- `str::trim_matches`: strips the characters with the property from both ends. -/
def trimMatches (p : Char → Bool) (s : Str) : Str :=
  ((s.dropWhile p).reverse.dropWhile p).reverse

/-- `str::split(',')`. -/
def splitComma : Str → List Str
  | [] => [[]]
  | c :: s =>
    if c = ',' then [] :: splitComma s
    else match splitComma s with
      | [] => [[c]]
      | seg :: segs => (c :: seg) :: segs

/-- The text `component.trim().trim_matches('\'')`, /repo/src/cli_util.rs lines 23, 25, 27. -/
def cleanComponent (c : Str) : Str := trimMatches (· == '\'') (trimMatches isWhitespace c)

/-- The loop of `parse_paths`, /repo/src/cli_util.rs lines 22-29. -/
def parsePathsLoop : List Str → Str → List Str → Str × List Str
  | [], primary, logs => (primary, logs)
  | c :: cs, primary, logs =>
    let lower := asciiLower (cleanComponent c)
    if ".log1".toList.isSuffixOf lower || ".log2".toList.isSuffixOf lower then
      parsePathsLoop cs primary (logs ++ [cleanComponent c])
    else parsePathsLoop cs (cleanComponent c) logs

/-- `parse_paths`, /repo/src/cli_util.rs lines 19-35. -/
def parsePaths (paths : Str) : Str × Option (List Str) :=
  let (primary, logs) := parsePathsLoop (splitComma paths) [] []
  if logs.isEmpty then (primary, none) else (primary, some logs)

/-- `get_log_name`, /repo/src/cli_util.rs lines 49-59. -/
def getLogName (folder : List Str) (name ext : Str) : List Str :=
  let logName :=
    if name = "NTUSER.DAT".toList then "ntuser.dat".toList
    else if name = "UsrClass.DAT".toList then "UsrClass.dat".toList
    else name
  folder ++ [logName ++ '.' :: ext]

/-- `check_add_log`, /repo/src/cli_util.rs lines 37-47. -/
def checkAddLog (fs : Files) (folder : List Str) (name ext : Str) (logs : List (List Str)) :
    List (List Str) :=
  let log := getLogName folder name ext
  if (fs log).isSome then logs ++ [log] else logs

/-- `Path::parent`: none for the empty path, else the path without its last component. -/
def parentOf (path : List Str) : Option (List Str) :=
  if path.isEmpty then none else some path.dropLast

/-- `get_log_files`, /repo/src/cli_util.rs lines 61-72. -/
def getLogFiles (fs : Files) (skip : Bool) (f : Str) (path : List Str) : Option (List (List Str)) :=
  if skip then none
  else
    match parentOf path with
    | none => some []
    | some folder =>
      some (checkAddLog fs folder f "LOG2".toList (checkAddLog fs folder f "LOG1".toList []))

/-- `file_has_size`, /repo/src/cli_util.rs lines 74-89 (without what it prints). -/
def fileHasSize (fs : Files) (path : List Str) : Bool :=
  match fs path with
  | some n => n != 0
  | none => false

/-- `reg_files`, /repo/bin/reg_dump/main.rs lines 170-179, /repo/bin/reg_compare.rs lines 161-170. -/
def regFiles : List Str :=
  ["sam", "security", "software", "system", "default", "amcache", "ntuser.dat", "usrclass.dat"].map
    String.toList

/-- The formats of the output files, /repo/bin/reg_dump/main.rs lines 263-269, and of the
comparison, with their extensions, /repo/bin/reg_dump/main.rs lines 219-224, /repo/bin/reg_compare.rs
lines 222-226. -/
inductive OutputType | Jsonl | Common | Tsv | Xlsx | Diff | Report
deriving DecidableEq

def OutputType.ext : OutputType → Str
  | .Xlsx => "xlsx".toList
  | .Tsv => "tsv".toList
  | .Common => "txt".toList
  | .Jsonl => "jsonl".toList
  | .Diff => "diff".toList
  | .Report => "txt".toList

/-- `Path::file_stem` of a file name: up to the last dot, unless there is none or only a leading
one. -/
def fileStem (name : Str) : Str :=
  match (name.reverse.dropWhile (· != '.')) with
  | [] => name
  | _ :: before => if before.isEmpty then name else before.reverse

/-- `Path::set_extension` on a file name, for an extension that is not empty. -/
def setExtension (name ext : Str) : Str := fileStem name ++ '.' :: ext

/-- The path below the base as text with `_` for the separators: `to_string_lossy` and
`str::replace`, /repo/bin/reg_dump/main.rs lines 216-217, /repo/bin/reg_compare.rs lines 219-220. -/
def joinUnderscore : List Str → Str
  | [] => []
  | [c] => c
  | c :: cs => c ++ '_' :: joinUnderscore cs

/-- `get_outpath`, /repo/bin/reg_dump/main.rs lines 212-226, /repo/bin/reg_compare.rs lines 215-228:
the name of the output file in the output folder.  Simplified: the path is not empty and not `.` or
`..`. -/
def outName (rel : List Str) (t : OutputType) : Str := setExtension (joinUnderscore rel) t.ext

/-- Whether the walk takes a file, /repo/bin/reg_dump/main.rs lines 186-188, /repo/bin/reg_compare.rs
lines 178-180.  Simplified: `str::to_lowercase` is replaced by its ASCII version.  They differ on
characters beyond ASCII only; none of those is lower-cased to a text of letters in `regFiles`. -/
def takesFile (fs : Files) (path : List Str) : Bool :=
  match path.getLast? with
  | none => false
  | some f => regFiles.contains (asciiLower f) && fileHasSize fs path

/-- What one file of the walk leads to: the primary file, the logs and the output file. -/
structure Job where
  input : List Str
  logs : Option (List (List Str))
  output : Str
deriving DecidableEq

/-- The walk of `process_folder`, /repo/bin/reg_dump/main.rs lines 181-208.  `entries` are the paths
below `base` of the files `WalkDir` yields. -/
def folderJobs (fs : Files) (skip : Bool) (t : OutputType) (base : List Str) (entries : List (List Str)) :
    List Job :=
  (entries.filter fun rel => takesFile fs (base ++ rel)).map fun rel =>
    { input := base ++ rel
      logs := getLogFiles fs skip (rel.getLast?.getD []) (base ++ rel)
      output := outName rel t }

/-- The output folder after the jobs were run in turn, /repo/bin/reg_dump/main.rs lines 192-203: a
job that fails changes nothing (line 194 drops the error), the others create or replace their file.
`dump` is `reg_dump`: the text written, or none if it fails before the file is made. -/
def runJobs (dump : List Str → Option (List (List Str)) → Option Str) :
    List Job → (Str → Option Str) → Str → Option Str
  | [], out => out
  | j :: js, out =>
    match dump j.input j.logs with
    | none => runJobs dump js out
    | some text => runJobs dump js fun name => if name = j.output then some text else out name

/-- The walk of `process_folders`, /repo/bin/reg_compare.rs lines 173-213: base file and its logs, the
file at the same place below the other folder and its logs, the output file. -/
def compareJobs (fs : Files) (skip : Bool) (t : OutputType) (base other : List Str)
    (entries : List (List Str)) : List (Job × Job) :=
  (entries.filter fun rel => takesFile fs (base ++ rel) && fileHasSize fs (other ++ rel)).map fun rel =>
    ({ input := base ++ rel
       logs := getLogFiles fs skip (rel.getLast?.getD []) (base ++ rel)
       output := outName rel t },
     { input := other ++ rel
       logs := getLogFiles fs skip (rel.getLast?.getD []) (other ++ rel)
       output := outName rel t })

end Notatin
