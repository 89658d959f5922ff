import Verif.Model.Compare
import Verif.Model.Files
/-
Model of `/repo/bin/reg_compare.rs` from the options to the contents of the report.
-/
namespace Notatin

/-- `Debug` of `CellValue`, derived, /repo/src/cell_value.rs lines 23-35. -/
def CellValue.debug (printed : Char → Bool) : CellValue → Str
  | .None => "None".toList
  | .Binary b => "Binary([".toList ++ joinCommas (b.map fun x => decimal x.toNat) ++ "])".toList
  | .String s => "String(".toList ++ debugStr printed s ++ [')']
  | .MultiString m => "MultiString(".toList ++ debugList printed m ++ [')']
  | .U32 n => "U32(".toList ++ decimal n ++ [')']
  | .I32 i => "I32(".toList ++ intText i ++ [')']
  | .U64 n => "U64(".toList ++ decimal n ++ [')']
  | .I64 i => "I64(".toList ++ intText i ++ [')']
  | .Error => "Error".toList

/-- The time and the flags in `format_key`, /repo/bin/reg_compare.rs lines 631-640. -/
def compareKeyRest (n : Node) : Str :=
  keyTime n.key ++ '\t' :: keyFlagsText n.key ++ '\t' :: keyAccessText n.key

/-- The content in `format_value`, /repo/bin/reg_compare.rs lines 622-629. -/
def compareContent (u : Prints) (v : Value) : Str := (valueContent v).debug u.printed

/-- The names of the files in the report, /repo/bin/reg_compare.rs lines 246-253; `shown` is `to_string_lossy`. -/
def filenames (u : Prints) (shown : List Str → Str) (primary : List Str) (logs : Option (List (List Str))) : Str :=
  match logs with
  | none => shown primary
  | some ls => debugStr u.printed (shown primary) ++ ' ' :: debugList u.printed (ls.map shown)

/-- An opened hive as `reg_compare` uses it. -/
def HiveParser.opened (p : HiveParser) : Opened := ⟨p.env, p.state, p.root, p.header.base.rootCellOffset⟩

/-- `reg_compare`, /repo/bin/reg_compare.rs lines 246-365, without the file written: both hives are opened
(`get_parser`, lines 642-648), compared, and the report is made.  Simplified: the second hive is opened before
the first is iterated over. -/
def compareReport (w : World) (order : HashIndex → HashIndex) (steps : Nat) (u : Prints) (shown : List Str → Str)
    (filter : Option Filter) (diff : Bool) (base : List Str) (baseLogs : Option (List (List Str)))
    (comp : List Str) (compLogs : Option (List (List Str))) (disk : Disk) : Option (Res Str) :=
  match buildFromPath w disk base (baseLogs.getD []) false false with
  | none => none
  | some .err => some .err
  | some .panic => some .panic
  | some (.ok p1) =>
    match buildFromPath w disk comp (compLogs.getD []) false false with
    | none => none
    | some .err => some .err
    | some .panic => some .panic
    | some (.ok p2) =>
      match regCompare order steps (filter.getD {}) p1.opened p2.opened with
      | none => none
      | some .err => some .err
      | some .panic => some .panic
      | some (.ok d) =>
        some (.ok ((if diff then writeDiff else writeText) compareKeyRest (compareContent u)
          (filenames u shown base baseLogs) (filenames u shown comp compLogs) d))

/-- `process_files`, /repo/bin/reg_compare.rs lines 117-148; the logs are looked up first. -/
def compareFilesTo (v : Volume) (w : World) (order : HashIndex → HashIndex) (steps : Nat) (u : Prints)
    (shown : List Str → Str) (filter : Option Filter) (diff skip : Bool) (base comp output : List Str)
    (disk : Disk) : Option (Res Unit × Disk) :=
  match base.getLast?, comp.getLast? with
  | some b, some c =>
    compareTo v (compareReport w order steps u shown filter diff base (getLogFiles disk.files skip b base)
      comp (getLogFiles disk.files skip c comp)) output disk
  | _, _ => some (.panic, disk)

/-- The loop of `process_folders` on the disk, /repo/bin/reg_compare.rs lines 173-213: an error is printed and
dropped.  Simplified: the entries `WalkDir` yields are fixed before. -/
def compareFoldersTo (v : Volume) (w : World) (order : HashIndex → HashIndex) (steps : Nat) (u : Prints)
    (shown : List Str → Str) (filter : Option Filter) (diff skip : Bool) (outfolder base comp : List Str) :
    List (List Str) → Disk → Option (Res Unit × Disk)
  | [], disk => some (.ok (), disk)
  | rel :: rels, disk =>
    if takesFile disk.files (base ++ rel) && fileHasSize disk.files (comp ++ rel) then
      match compareTo v (compareReport w order steps u shown filter diff (base ++ rel)
          (getLogFiles disk.files skip (rel.getLast?.getD []) (base ++ rel)) (comp ++ rel)
          (getLogFiles disk.files skip (rel.getLast?.getD []) (comp ++ rel)))
          (outfolder ++ [outName rel (if diff then .Diff else .Report)]) disk with
      | none => none
      | some (.panic, disk) => some (.panic, disk)
      | some (_, disk) =>
        compareFoldersTo v w order steps u shown filter diff skip outfolder base comp rels disk
    else compareFoldersTo v w order steps u shown filter diff skip outfolder base comp rels disk

end Notatin
