import Verif.Model.Open
import Verif.Model.Time
import Verif.Model.CellValue
/-
The Python bindings, /repo/pynotatin/src.  A Python exception is `Res.err`; objects of the bindings
are the Rust values inside them; making a Python object out of a Rust value (pyo3) is assumed to
succeed.  `PyLogger` (/repo/pynotatin/src/util.rs lines 118-167) is left out.
-/
namespace Notatin

/-! ### Dates -/

/-- `nanos_to_micros_round_half_even`, /repo/pynotatin/src/util.rs lines 66-76. -/
def nanosToMicros (nanos : Nat) : Nat :=
  let e7 := nanos % 1000 / 100
  let e6 := nanos % 10000 / 1000
  let micros := nanos / 10000 * 10
  if e7 > 5 then micros + (e6 + 1) else if e7 < 5 then micros + e6 else micros + (e6 + e6 % 2)

/-- `date_splitter`, /repo/pynotatin/src/util.rs lines 78-87; `timestamp()` rounds down and
`timestamp_subsec_nanos()` is the rest (chrono).  A date is its nanoseconds since 1970. -/
def dateSplitter (date : Int) : Int × Nat :=
  let unixTime := date / 1000000000
  let micros := nanosToMicros (date % 1000000000).toNat
  (unixTime + (micros / 1000000 : Nat), micros % 1000000)

/-- `round_to_usec_half_even`, /repo/pynotatin/src/util.rs lines 89-97 (`from_timestamp_opt` has
room for every second a date in nanoseconds can have). -/
def roundToUsec (date : Int) : Int :=
  let (unixTime, micros) := dateSplitter date
  unixTime * 1000000000 + (micros * 1000 : Nat)

/-- The fields of a Python `datetime` without time zone. -/
structure PyDateTime where
  year : Nat
  month : Nat
  day : Nat
  hour : Nat
  minute : Nat
  second : Nat
  microsecond : Nat
deriving DecidableEq, Repr

/-- `date_to_pyobject`, /repo/pynotatin/src/util.rs lines 99-116.  The calendar is chrono's, as in
`dateText`: dates after 1601 only, which all dates of keys are (`dateTimeFromFiletime`). -/
def dateToPyobject (date : Int) : PyDateTime :=
  let t := (roundToUsec date + 11644473600 * 1000000000).toNat
  let secs := t / 1000000000
  let days := secs / 86400
  let sod := secs % 86400
  let yd := yearOf days 1601 days
  let md := monthOf (monthLengths (yearLength yd.1)) 1 yd.2
  ⟨yd.1, md.1, md.2 + 1, sod / 3600, sod / 60 % 60, sod % 60, t % 1000000000 / 1000⟩

/-! ### Keys -/

/-- `PyNotatinKey`, /repo/pynotatin/src/py_notatin_key.rs lines 27-32. -/
structure PyKey where
  inner : Node
  lastWritten : PyDateTime

/-- `PyNotatinKey::from_cell_key_node`, /repo/pynotatin/src/py_notatin_key.rs lines 132-145. -/
def PyKey.ofNode (n : Node) : PyKey :=
  ⟨n, dateToPyobject (dateTimeFromFiletime n.key.lastWritten)⟩

/-- The getters `name`, `path`, /repo/pynotatin/src/py_notatin_key.rs lines 81-93. -/
def PyKey.name (k : PyKey) : Str := k.inner.key.name
def PyKey.path (k : PyKey) : Str := k.inner.key.path

/-- `get_pretty_path`, /repo/src/cell_key_node.rs lines 263-265; a slice outside the text or inside a character
panics. -/
def Node.prettyPath (n : Node) : Res Str :=
  match dropBytes (getRootPathOffset n.key.path) n.key.path with
  | some rest => .ok rest
  | none => .panic

/-- The getter `pretty_path`, /repo/pynotatin/src/py_notatin_key.rs lines 99-102. -/
def PyKey.prettyPath (k : PyKey) : Res Str := k.inner.prettyPath

/-- `PyNotatinParser`, /repo/pynotatin/src/py_notatin_parser.rs lines 35-37. -/
structure PyParser where
  inner : Option HiveParser

/-- The parser after an access which leaves the offset of the root path at `ro`. -/
def PyParser.touched (q : HiveParser) (ro : Nat) : PyParser :=
  ⟨some { q with state := { q.state with rootOffset := ro } }⟩

/-- `key_for`, /repo/pynotatin/src/py_notatin_parser.rs lines 81-97. -/
def PyParser.keyFor (p : PyParser) (func : HiveParser → Res (Option Node × Nat)) :
    Res (Option PyKey × PyParser) :=
  match p.inner with
  | none => .ok (none, p)
  | some q =>
    match func q with
    | .ok (key, ro) => .ok (key.map PyKey.ofNode, .touched q ro)
    | .err => .err
    | .panic => .panic

/-- `open`, /repo/pynotatin/src/py_notatin_parser.rs lines 57-59. -/
def PyParser.open (p : PyParser) (path : Str) : Res (Option PyKey × PyParser) :=
  p.keyFor fun q => getKey q.env q.state q.header.base.rootCellOffset path false

/-- `root`, /repo/pynotatin/src/py_notatin_parser.rs lines 62-64. -/
def PyParser.root (p : PyParser) : Res (Option PyKey × PyParser) :=
  p.keyFor fun q => getRootKey q.env q.state q.header.base.rootCellOffset

/-- `get_parent`, /repo/pynotatin/src/py_notatin_parser.rs lines 67-69. -/
def PyParser.getParent (p : PyParser) (key : PyKey) : Res (Option PyKey × PyParser) :=
  p.keyFor fun q => getParentKey q.env q.state key.inner

/-- `PyNotatinKey::find_key`, /repo/pynotatin/src/py_notatin_key.rs lines 65-75. -/
def PyKey.findKey (k : PyKey) (p : PyParser) (path : Str) : Res (Option PyKey × PyParser) :=
  p.keyFor fun q => getSubKeyByPath q.env q.state k.inner path

/-- `PyNotatinKeysIterator`, /repo/pynotatin/src/py_notatin_parser.rs lines 164-167. -/
structure PyKeysIter where
  inner : HiveParser
  ctx : IterCtx

/-- `reg_keys` and `__iter__`, /repo/pynotatin/src/py_notatin_parser.rs lines 52-54, 71-73,
100-119, with what is left of the parser. -/
def PyParser.regKeys (p : PyParser) : Res PyKeysIter × PyParser :=
  match p.inner with
  | some q => (.ok ⟨q, .start q.state q.root {} true false⟩, ⟨none⟩)
  | none => (.err, p)

/-- `PyNotatinKeysIterator::next`, /repo/pynotatin/src/py_notatin_parser.rs lines 177-183. -/
def PyKeysIter.next (it : PyKeysIter) (steps : Nat) : Option (Res (Option PyKey × PyKeysIter)) :=
  match nextPre it.inner.env steps it.ctx with
  | none => none
  | some .err => some .err
  | some .panic => some .panic
  | some (.ok (n, ctx)) => some (.ok (n.map PyKey.ofNode, { it with ctx }))

/-- A Python `for` loop over the iterator, `list(it)`: at most `steps` rounds. -/
def PyKeysIter.list : Nat → PyKeysIter → Option (Res (List PyKey))
  | 0, _ => none
  | fuel + 1, it =>
    match it.next (fuel + 1) with
    | none => none
    | some .err => some .err
    | some .panic => some .panic
    | some (.ok (none, _)) => some (.ok [])
    | some (.ok (some k, it)) =>
      match PyKeysIter.list fuel it with
      | some (.ok ks) => some (.ok (k :: ks))
      | r => r

/-! ### The iterators over lists -/

/-- `PyNotatinSubKeysIterator::next`, /repo/pynotatin/src/py_notatin_key.rs lines 217-227, and
`PyNotatinValueVersionsIterator::next`, /repo/pynotatin/src/py_notatin_value.rs lines 137-150: the
item at the index, and the index after it. -/
def listNext {α : Type} (items : List α) (index : Nat) : Option (α × Nat) :=
  match items[index]? with
  | some x => some (x, index + 1)
  | none => none

/-- A Python `for` loop over an iterator with an index, at most `fuel` rounds; `none` when it has not
ended by then. -/
def drain {α : Type} (next : Nat → Option (α × Nat)) : Nat → Nat → Option (List α)
  | 0, _ => none
  | fuel + 1, i =>
    match next i with
    | none => some []
    | some (x, i) => (drain next fuel i).map (x :: ·)

/-- `PyNotatinKey::values`, `__iter__`, /repo/pynotatin/src/py_notatin_key.rs lines 40-42, 122-124,
147-157, and `PyNotatinValuesIterator::next`, lines 197-207. -/
def PyKey.values (k : PyKey) (fuel : Nat) : Option (List Value) :=
  drain (fun i => k.inner.key.nextValue i) fuel 0

/-- `PyNotatinKey::value`, /repo/pynotatin/src/py_notatin_key.rs lines 48-55. -/
def PyKey.value (k : PyKey) (name : Str) : Option Value := k.inner.key.getValue name

/-- `PyNotatinKey::subkeys`, /repo/pynotatin/src/py_notatin_key.rs lines 61-63, 159-180 (the logs and
the state `read_sub_keys` leaves are not modelled). -/
def PyKey.subkeys (k : PyKey) (p : PyParser) (fuel : Nat) : Option (Res (List PyKey)) :=
  match p.inner with
  | some q =>
    match readSubKeys q.env q.state (initSubKeyIter k.inner) with
    | .ok ns => (drain (listNext ns) fuel 0).map fun l => .ok (l.map PyKey.ofNode)
    | .err => some .err
    | .panic => some .panic
  | none => (drain (listNext ([] : List PyKey)) fuel 0).map .ok

/-- `PyNotatinValue::versions`, /repo/pynotatin/src/py_notatin_value.rs lines 82-84, 117-127. -/
def pyVersions (v : Value) (fuel : Nat) : Option (List Value) := drain (listNext v.versions) fuel 0

/-! ### Building -/

/-- `FileOrFileLike`, /repo/pynotatin/src/util.rs lines 32-36: the content of the file with that
name, or that of a file-like object, with its position. -/
inductive PySource where
  | path (content : Bytes)
  | fileLike (content : Bytes) (pos : Nat)
deriving DecidableEq

/-- `to_read_seek`, /repo/pynotatin/src/util.rs lines 54-63, and `read_to_end` on it,
/repo/src/file_info.rs line 37 and /repo/src/transaction_log.rs line 198: a file opened by name is
read from its start, an object from where it stands. -/
def PySource.read : PySource → Bytes × PySource
  | .path c => (c, .path c)
  | .fileLike c pos => (c.drop pos, .fileLike c (max pos c.length))

/-- `PyNotatinParserBuilder`, /repo/pynotatin/src/py_notatin_parser.rs lines 123-127. -/
structure PyBuilder where
  primary : PySource
  recover : Bool := false
  logs : List PySource := []

/-- `recover_deleted`, `with_transaction_log`, /repo/pynotatin/src/py_notatin_parser.rs lines
140-148. -/
def PyBuilder.recoverDeleted (b : PyBuilder) (recover : Bool) : PyBuilder := { b with recover }
def PyBuilder.withTransactionLog (b : PyBuilder) (log : PySource) : PyBuilder :=
  { b with logs := b.logs ++ [log] }

/-- `build`, /repo/pynotatin/src/py_notatin_parser.rs lines 150-160: the parser and the builder
afterwards, whose objects have been read. -/
def PyBuilder.build (w : World) (b : PyBuilder) : Option (Res PyParser) × PyBuilder :=
  let builder := (({ primary := b.primary.read.1 } : Builder).recoverDeleted b.recover)
  let builder := b.logs.foldl (fun bd log => bd.withTransactionLog log.read.1) builder
  ((builder.build w).map fun r =>
      match r with
      | .ok q => .ok ⟨some q⟩
      | .err => .err
      | .panic => .panic,
    { b with primary := b.primary.read.2, logs := b.logs.map fun log => log.read.2 })

/-- `PyNotatinParser(…)`, /repo/pynotatin/src/py_notatin_parser.rs lines 42-49. -/
def PyParser.new (w : World) (source : PySource) : Option (Res PyParser) :=
  (PyBuilder.build w { primary := source }).1

/-! ### Values -/

/-- What a Python program can be given as the content of a value. -/
inductive PyObj where
  | str (s : Str)
  | int (i : Int)
  | list (l : List Str)
  | bytes (b : Bytes)
deriving DecidableEq, Repr

/-- `prepare_content`, /repo/pynotatin/src/py_notatin_value.rs lines 102-115; `none` is Python's
`None`. -/
def prepareContent : CellValue → Option PyObj
  | .String s => some (.str s)
  | .I32 i => some (.int i)
  | .U32 n => some (.int n)
  | .U64 n => some (.int n)
  | .I64 i => some (.int i)
  | .MultiString l => some (.list l)
  | .Binary b => some (.bytes b)
  | .None | .Error => none

/-- The getter `content`, /repo/pynotatin/src/py_notatin_value.rs lines 61-64: the logs are
dropped. -/
def pyContent (v : KeyValue) : Res (Option PyObj) :=
  match getContent v.dataType v.valueBytes with
  | .ok (c, _) => .ok (prepareContent c)
  | .err => .err
  | .panic => .panic

/-- The getter `value`, /repo/pynotatin/src/py_notatin_value.rs lines 38-41. -/
def pyValue (v : KeyValue) : Bytes := v.valueBytes.getD []

/-- `decode`, /repo/pynotatin/src/py_notatin_value.rs lines 67-80: the logs are dropped. -/
def pyDecode (v : KeyValue) (fmt : DecodeFormat) (offset : Nat) : Res CellValue :=
  match decodeContent v.dataType v.valueBytes fmt offset with
  | .ok (c, _) => .ok c
  | .err => .err
  | .panic => .panic

end Notatin
