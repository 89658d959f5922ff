import Verif.Model.Dump
/-
The effect of the programs on the files: `std::io::BufWriter` as the writers of `/repo/bin/reg_dump` and
`/repo/bin/reg_compare.rs` use it, and when which file is created.

Simplified: a file that cannot grow beyond a length stands for every failure of writing (a full volume, a
quota); `File::create` succeeds; the progress display succeeds.
-/
namespace Notatin

/-- `File::write_all` on a file that can hold `limit` bytes: what does not fit is not written, and the call
fails. -/
def putFile (limit : Nat) (file b : Bytes) : Bytes × Bool :=
  (file ++ b.take (limit - file.length), decide (b.length ≤ limit - file.length))

/-- A file and the buffer in front of it. -/
structure Buffered where
  file : Bytes
  buf : Bytes

/-- `BufWriter::flush_buf` of the standard library: what was written leaves the buffer. -/
def Buffered.flushBuf (limit : Nat) (w : Buffered) : Buffered × Bool :=
  (⟨(putFile limit w.file w.buf).1, w.buf.drop (limit - w.file.length)⟩, (putFile limit w.file w.buf).2)

/-- `BufWriter::write_all` of the standard library with a buffer of `cap` bytes. -/
def Buffered.writeAll (limit cap : Nat) (w : Buffered) (b : Bytes) : Buffered × Bool :=
  if b.length < cap - w.buf.length then (⟨w.file, w.buf ++ b⟩, true)
  else
    let (w, ok) := if cap - w.buf.length < b.length then w.flushBuf limit else (w, true)
    if ok = false then (w, false)
    else if cap ≤ b.length then
      (⟨(putFile limit w.file b).1, w.buf⟩, (putFile limit w.file b).2)
    else (⟨w.file, w.buf ++ b⟩, true)

/-- A run of writes that ends at the first failure: `writeln!(…)?` and `write!(…)?`, as in
/repo/bin/reg_dump/json_writer.rs line 44, /repo/bin/reg_dump/tsv_writer.rs lines 45-61. -/
def Buffered.run (limit cap : Nat) : List Bytes → Buffered → Buffered × Bool
  | [], w => (w, true)
  | b :: bs, w =>
    match w.writeAll limit cap b with
    | (w, false) => (w, false)
    | (w, true) => Buffered.run limit cap bs w

/-- A file written with `BufWriter::new(File::create(…)?)`, /repo/bin/reg_dump/json_writer.rs lines 36-46,
/repo/bin/reg_dump/tsv_writer.rs lines 39-47, /repo/bin/reg_dump/common_writer.rs lines 36-44,
/repo/bin/reg_compare.rs lines 242-244: the writer is never flushed, `Drop` flushes it and drops the error.
The result is the file and whether the writes succeeded. -/
def bufferedFile (limit cap : Nat) (pieces : List Bytes) : Bytes × Bool :=
  let (w, ok) := Buffered.run limit cap pieces ⟨[], []⟩
  ((w.flushBuf limit).1.file, ok)

/-- The capacity `BufWriter::new` takes. -/
def bufCapacity : Nat := 8192

/-- A text in UTF-8. -/
def utf8Bytes (s : Str) : Bytes := s.flatMap String.utf8EncodeChar

/-- What the files have beside the disk: how texts are cut into writes, how long a file can grow, and what the
library makes of a workbook (with whether it succeeds). -/
structure Volume where
  pieces : Bytes → List Bytes
  limit : Nat
  pack : Dumped → Bytes × Bool

/-- The file an export becomes. -/
def Volume.save (v : Volume) : Dumped → Bytes × Bool
  | .text s => bufferedFile v.limit bufCapacity (v.pieces (utf8Bytes s))
  | d => v.pack d

/-- A file is created or replaced. -/
def Disk.write (disk : Disk) (path : List Str) (b : Bytes) : Disk :=
  fun q => if q = path then some b else disk q

/-- The file is created or replaced, if something is written at all. -/
def Disk.apply (disk : Disk) (path : List Str) : Option Bytes → Disk
  | none => disk
  | some b => disk.write path b

/-- `reg_dump`, /repo/bin/reg_dump/main.rs lines 228-261, with what the output file holds afterwards, if it is
created: the hive is opened, then the output is created, /repo/bin/reg_dump/json_writer.rs line 36,
/repo/bin/reg_dump/tsv_writer.rs line 39, /repo/bin/reg_dump/common_writer.rs line 36,
/repo/bin/reg_dump/xlsx_writer.rs line 67.  `junk` is what an export that fails in between has written. -/
def dumpEffect (v : Volume) (junk : Bytes) (w : World) (steps : Nat) (u : Prints) (o : DumpOptions)
    (filter : Option Filter) (input : List Str) (logs : Option (List (List Str)))
    (disk : Disk) : Option (Res Unit × Option Bytes) :=
  match buildFromPath w disk input (logs.getD []) o.recover o.full with
  | none => none
  | some .err => some (.err, none)
  | some .panic => some (.panic, none)
  | some (.ok p) =>
    match p.iterate steps (filter.getD {}) with
    | none => none
    | some .err => some (.err, some junk)
    | some .panic => some (.panic, some junk)
    | some (.ok ns) =>
      match writeDump u o (p.parseLogs u) ns with
      | .err => some (.err, some junk)
      | .panic => some (.panic, some junk)
      | .ok d => some (if (v.save d).2 then .ok () else .err, some (v.save d).1)

/-- The same, with its effect on the disk. -/
def dumpTo (v : Volume) (junk : Bytes) (w : World) (steps : Nat) (u : Prints) (o : DumpOptions)
    (filter : Option Filter) (input : List Str) (logs : Option (List (List Str))) (output : List Str)
    (disk : Disk) : Option (Res Unit × Disk) :=
  match dumpEffect v junk w steps u o filter input logs disk with
  | none => none
  | some (r, b) => some (r, disk.apply output b)

/-- `process_file`, /repo/bin/reg_dump/main.rs lines 132-158, with its effect on the disk. -/
def dumpFileTo (v : Volume) (junk : Bytes) (w : World) (steps : Nat) (u : Prints) (o : DumpOptions)
    (filter : Option Filter) (input output : List Str) (disk : Disk) : Option (Res Unit × Disk) :=
  match input.getLast? with
  | none => some (.panic, disk)
  | some name =>
    dumpTo v junk w steps u o filter input (getLogFiles disk.files o.skipLogs name input) output disk

/-- The loop of `process_folder` on the disk, /repo/bin/reg_dump/main.rs lines 181-208: the logs and whether a
file has a size are looked up when its turn comes; line 194 drops the result.  A panic ends the program.
Simplified: the entries `WalkDir` yields are fixed before. -/
def dumpFolderTo (v : Volume) (junk : Bytes) (w : World) (steps : Nat) (u : Prints) (o : DumpOptions)
    (filter : Option Filter) (outfolder base : List Str) :
    List (List Str) → Disk → Option (Res Unit × Disk)
  | [], disk => some (.ok (), disk)
  | rel :: rels, disk =>
    if takesFile disk.files (base ++ rel) then
      match dumpTo v junk w steps u o filter (base ++ rel)
          (getLogFiles disk.files o.skipLogs (rel.getLast?.getD []) (base ++ rel))
          (outfolder ++ [outName rel o.type]) disk with
      | none => none
      | some (.panic, disk) => some (.panic, disk)
      | some (_, disk) => dumpFolderTo v junk w steps u o filter outfolder base rels disk
    else dumpFolderTo v junk w steps u o filter outfolder base rels disk

/-- `reg_compare`, /repo/bin/reg_compare.rs lines 230-365, with its effect on the disk: the output is created
before the hives are read, and written to only when the report is complete.  `report` is the text made of the two
hives with their logs as they then are. -/
def compareTo (v : Volume) (report : Disk → Option (Res Str)) (output : List Str) (disk : Disk) :
    Option (Res Unit × Disk) :=
  match report (disk.write output []) with
  | none => none
  | some .err => some (.err, disk.write output [])
  | some .panic => some (.panic, disk.write output [])
  | some (.ok s) => some (if (v.save (.text s)).2 then .ok () else .err, disk.write output (v.save (.text s)).1)

end Notatin
