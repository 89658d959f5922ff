import Verif.Model.Analyzer
/-
Model of the comparison of two hives, /repo/bin/reg_compare.rs.

The two loops over keys and their values are one loop over the list of keys and values in the order
they are visited.  A `HashMap` is the list of its entries; the order in which the remaining entries
are visited is a parameter `order`.  Progress messages are dropped.  Of the printed rows the path and
the name are modelled; the rest (time, flags, content) is a parameter.
-/
namespace Notatin

/-- `original_map`, /repo/bin/reg_compare.rs line 257: path and value name to hash. -/
abbrev HashIndex := List (ItemKey × Option Bytes)

/-- `HashMap::get`. -/
def HashIndex.get (m : HashIndex) (k : ItemKey) : Option (Option Bytes) :=
  (m.find? fun x => decide (x.1 = k)).map Prod.snd

/-- `HashMap::remove`; what was removed is `HashIndex.get`. -/
def HashIndex.erase (m : HashIndex) (k : ItemKey) : HashIndex := m.filter fun x => decide (x.1 ≠ k)

/-- `HashMap::insert`. -/
def HashIndex.insert (m : HashIndex) (k : ItemKey) (h : Option Bytes) : HashIndex :=
  m.erase k ++ [(k, h)]

/-- A key, or a value with the path of its key. -/
inductive Thing where
  | key (n : Node)
  | value (path : Str) (v : Value)

/-- Where it is filed. -/
def Thing.at : Thing → ItemKey
  | .key n => (n.key.path, none)
  | .value path v => (path, some v.val.name)

/-- Its hash. -/
def Thing.hash : Thing → Option Bytes
  | .key n => n.key.hash
  | .value _ v => v.val.hash

/-- A key followed by its values, /repo/bin/reg_compare.rs lines 267-277, 300-330; `value_iter` goes
through `sub_values`, /repo/src/cell_key_node.rs lines 232-247, 800-814. -/
def thingsOf (n : Node) : List Thing := .key n :: n.key.values.map (.value n.key.path)

/-- The loop over the base, /repo/bin/reg_compare.rs lines 267-277. -/
def baseIndex (ts : List Thing) (m : HashIndex) : HashIndex :=
  ts.foldl (fun m t => m.insert t.at t.hash) m

/-- The six lists, /repo/bin/reg_compare.rs lines 280-285. -/
structure Differences where
  keysDeleted : List Node := []
  keysAdded : List Node := []
  keysModified : List (Node × Node) := []
  valuesDeleted : List (Str × Value) := []
  valuesAdded : List (Str × Value) := []
  valuesModified : List (Str × Value × Value) := []

/-- What the loops thread: the map, the root offset `parser1` caches (`get_key` takes `&mut self`)
and the lists. -/
structure Comparing where
  index : HashIndex
  rootOffset : Nat
  diff : Differences := {}

/-- `parser1.get_key(path, true).unwrap().unwrap()`, /repo/bin/reg_compare.rs lines 306-307, 317,
337, 341: anything but a key panics. -/
def originalKey (lookup : Nat → Str → Res (Option Node × Nat)) (c : Comparing) (path : Str) :
    Res (Node × Comparing) :=
  match lookup c.rootOffset path with
  | .ok (some n, ro) => .ok (n, { c with rootOffset := ro })
  | _ => .panic

/-- The same followed by `get_value(name).unwrap()`, /repo/bin/reg_compare.rs lines 317-319,
341-342. -/
def originalValue (lookup : Nat → Str → Res (Option Node × Nat)) (c : Comparing) (path name : Str) :
    Res (Node × Value × Comparing) :=
  match originalKey lookup c path with
  | .err => .err
  | .panic => .panic
  | .ok (n, c) =>
    match n.key.getValue name with
    | none => .panic
    | some v => .ok (n, v, c)

/-- One key or value of the comparison, /repo/bin/reg_compare.rs lines 303-325. -/
def compareThing (lookup : Nat → Str → Res (Option Node × Nat)) (c : Comparing) (t : Thing) :
    Res Comparing :=
  match c.index.get t.at with
  | some h =>
    let c := { c with index := c.index.erase t.at }
    if h = t.hash then .ok c
    else
      match t with
      | .key n =>
        match originalKey lookup c n.key.path with
        | .err => .err
        | .panic => .panic
        | .ok (o, c) =>
          .ok { c with diff := { c.diff with keysModified := c.diff.keysModified ++ [(o, n)] } }
      | .value path v =>
        match originalValue lookup c path v.val.name with
        | .err => .err
        | .panic => .panic
        | .ok (_, o, c) =>
          .ok { c with diff :=
            { c.diff with valuesModified := c.diff.valuesModified ++ [(path, o, v)] } }
  | none =>
    match t with
    | .key n => .ok { c with diff := { c.diff with keysAdded := c.diff.keysAdded ++ [n] } }
    | .value path v =>
      .ok { c with diff := { c.diff with valuesAdded := c.diff.valuesAdded ++ [(path, v)] } }

/-- The loop over the comparison, /repo/bin/reg_compare.rs lines 300-330. -/
def compareThings (lookup : Nat → Str → Res (Option Node × Nat)) :
    List Thing → Comparing → Res Comparing
  | [], c => .ok c
  | t :: ts, c =>
    match compareThing lookup c t with
    | .err => .err
    | .panic => .panic
    | .ok c => compareThings lookup ts c

/-- One entry that is left, /repo/bin/reg_compare.rs lines 335-345. -/
def remaining (lookup : Nat → Str → Res (Option Node × Nat)) (x : ItemKey × Option Bytes)
    (c : Comparing) : Res Comparing :=
  match x.1.2 with
  | none =>
    match originalKey lookup c x.1.1 with
    | .err => .err
    | .panic => .panic
    | .ok (o, c) => .ok { c with diff := { c.diff with keysDeleted := c.diff.keysDeleted ++ [o] } }
  | some name =>
    match originalValue lookup c x.1.1 name with
    | .err => .err
    | .panic => .panic
    | .ok (n, o, c) =>
      .ok { c with diff :=
        { c.diff with valuesDeleted := c.diff.valuesDeleted ++ [(n.key.path, o)] } }

/-- The comparison, /repo/bin/reg_compare.rs lines 257-346, on the keys the two iterations yield. -/
def compareHives (lookup : Nat → Str → Res (Option Node × Nat)) (order : HashIndex → HashIndex)
    (ro : Nat) (base comp : List Node) : Res Differences :=
  match compareThings lookup (comp.flatMap thingsOf)
      { index := baseIndex (base.flatMap thingsOf) [], rootOffset := ro } with
  | .err => .err
  | .panic => .panic
  | .ok c =>
    match forEach (remaining lookup) (order c.index) c with
    | .err => .err
    | .panic => .panic
    | .ok c => .ok c.diff

/-- An opened hive: what `get_parser` returns, /repo/bin/reg_compare.rs lines 642-648. -/
structure Opened where
  env : Env
  st : State
  root : Option Node
  rootCellOffset : Int

/-- The keys `ParserIterator::new(&parser)` yields with the filter, /repo/bin/reg_compare.rs
lines 263-266, 296-299. -/
def Opened.keys (p : Opened) (steps : Nat) (filter : Filter) : Option (Res (List Node)) :=
  collect (nextPre p.env) steps (.start p.st p.root filter true false)

/-- `get_key(path, true)` with the cached root offset. -/
def Opened.lookup (p : Opened) (ro : Nat) (path : Str) : Res (Option Node × Nat) :=
  getKey p.env { p.st with rootOffset := ro } p.rootCellOffset path true

/-- `reg_compare`, /repo/bin/reg_compare.rs lines 230-365, up to the output; `none` means an
iteration is still running. -/
def regCompare (order : HashIndex → HashIndex) (steps : Nat) (filter : Filter) (base comp : Opened) :
    Option (Res Differences) :=
  match base.keys steps filter with
  | none => none
  | some .err => some .err
  | some .panic => some .panic
  | some (.ok bs) =>
    match comp.keys steps filter with
    | none => none
    | some .err => some .err
    | some .panic => some .panic
    | some (.ok cs) => some (compareHives base.lookup order base.st.rootOffset bs cs)

/-! ### The output -/

/-- `format_key`, /repo/bin/reg_compare.rs lines 631-640; `rest` is the time and the flags. -/
def formatKey (rest : Node → Str) (n : Node) : Str := n.key.path ++ '\t' :: rest n

/-- `format_value`, /repo/bin/reg_compare.rs lines 622-629; `content` is the content. -/
def formatValue (content : Value → Str) (path : Str) (v : Value) : Str :=
  path ++ '\t' :: v.val.prettyName ++ '\t' :: content v

/-- A number in decimal, `{}`. -/
def decimal (n : Nat) : Str := Nat.toDigits 10 n

/-- `writeln!`: the line and a line feed. -/
def writeLn (s : Str) : Str := s ++ ['\n']

/-- The loop over `removed.zip_longest(added)`, /repo/bin/reg_compare.rs lines 380-389. -/
def zipLongest : List Str → List Str → Str
  | r :: rs, a :: as => writeLn r ++ writeLn a ++ zipLongest rs as
  | r :: rs, [] => writeLn r ++ zipLongest rs []
  | [], a :: as => writeLn a ++ zipLongest [] as
  | [], [] => []

/-- The rule of dashes. -/
def dashes : Str := "----------------------------------".toList

/-- `write_text_section`, /repo/bin/reg_compare.rs lines 367-391. -/
def writeTextSection (header : Str) (removed added : List Str) (len : Nat) : Str :=
  writeLn ('\n' :: dashes ++ '\n' :: header ++ ": ".toList ++ decimal len ++ '\n' :: dashes) ++
    zipLongest removed added

/-- `write_text`, /repo/bin/reg_compare.rs lines 393-464. -/
def writeText (rest : Node → Str) (content : Value → Str) (base comp : Str) (d : Differences) : Str :=
  let total := d.keysDeleted.length + d.keysAdded.length + d.keysModified.length +
    d.valuesDeleted.length + d.valuesAdded.length + d.valuesModified.length
  writeLn ("Base: ".toList ++ base ++ [' ']) ++ writeLn ("Comparison: ".toList ++ comp) ++
  writeTextSection "Keys deleted".toList (d.keysDeleted.map (formatKey rest)) []
    d.keysDeleted.length ++
  writeTextSection "Keys added".toList [] (d.keysAdded.map (formatKey rest)) d.keysAdded.length ++
  writeTextSection "Keys modified".toList (d.keysModified.map fun k => formatKey rest k.1)
    (d.keysModified.map fun k => formatKey rest k.2) d.keysModified.length ++
  writeTextSection "Values deleted".toList
    (d.valuesDeleted.map fun v => formatValue content v.1 v.2) [] d.valuesDeleted.length ++
  writeTextSection "Values added".toList []
    (d.valuesAdded.map fun v => formatValue content v.1 v.2) d.valuesAdded.length ++
  writeTextSection "Values modified".toList
    (d.valuesModified.map fun v => formatValue content v.1 v.2.1)
    (d.valuesModified.map fun v => formatValue content v.1 v.2.2) d.valuesModified.length ++
  writeLn ('\n' :: dashes ++ "\nTotal changes: ".toList ++ decimal total ++ '\n' :: dashes)

/-- `write_diff_section`, /repo/bin/reg_compare.rs lines 466-491: the text and the new line
numbers. -/
def writeDiffSection (lline : Nat) (left : List Str) (llen : Nat) (rline : Nat) (right : List Str)
    (rlen : Nat) : Str × Nat × Nat :=
  if 0 < llen ∨ 0 < rlen then
    (writeLn ("@@ -".toList ++ decimal lline ++ ',' :: decimal llen ++ " +".toList ++ decimal rline ++
        ',' :: decimal rlen ++ " @@".toList) ++
      (left.flatMap fun l => writeLn ('-' :: l)) ++ (right.flatMap fun r => writeLn ('+' :: r)),
      lline + llen, rline + rlen)
  else ([], lline, rline)

/-- `write_diff`, /repo/bin/reg_compare.rs lines 595-620, with its six callees, lines 493-593. -/
def writeDiff (rest : Node → Str) (content : Value → Str) (base comp : Str) (d : Differences) : Str :=
  let head := writeLn ("--- ".toList ++ base) ++ writeLn ("+++ ".toList ++ comp)
  let (s1, l, r) := writeDiffSection 1 (d.keysDeleted.map (formatKey rest)) d.keysDeleted.length
    1 [] 0
  let (s2, l, r) := writeDiffSection l [] 0 r (d.keysAdded.map (formatKey rest)) d.keysAdded.length
  let (s3, l, r) := writeDiffSection l (d.keysModified.map fun k => formatKey rest k.1)
    d.keysModified.length r (d.keysModified.map fun k => formatKey rest k.2) d.keysModified.length
  let (s4, l, r) := writeDiffSection l (d.valuesDeleted.map fun v => formatValue content v.1 v.2)
    d.valuesDeleted.length r [] 0
  let (s5, l, r) := writeDiffSection l [] 0 r
    (d.valuesAdded.map fun v => formatValue content v.1 v.2) d.valuesAdded.length
  let (s6, _, _) := writeDiffSection l (d.valuesModified.map fun v => formatValue content v.1 v.2.1)
    d.valuesModified.length r (d.valuesModified.map fun v => formatValue content v.1 v.2.2)
    d.valuesModified.length
  head ++ s1 ++ s2 ++ s3 ++ s4 ++ s5 ++ s6

end Notatin
