import Verif.Model.KeyValue
import Verif.Model.SubKeyList
import Verif.Model.Filter
/-
Model of the key cell (`nk`), `/repo/src/cell_key_node.rs`, and of the recovery state,
`/repo/src/state.rs`.  Only the variant without full field information is modelled.
-/
namespace Notatin

/-- `FilterMatchState`, /repo/src/cell_key_node.rs lines 80-85. -/
inductive FilterMatchState where
  | None | Descendent | Exact
deriving Repr, DecidableEq

/-- `CellKeyNode` with its detail and iteration state, /repo/src/cell_key_node.rs lines 53-118;
everything except `versions` and `deleted_keys`. -/
structure KeyNode where
  fileOffset : Nat
  size : Int
  flagBits : Nat
  lastWritten : Nat
  accessBits : Nat
  parentOffset : Int
  nSubKeys : Nat
  nVolatileSubKeys : Nat
  subKeysListOffset : Nat
  volatileListOffset : Int
  nValues : Nat
  valuesListOffset : Int
  securityOffset : Nat
  classNameOffset : Int
  largestSubKeyName : Nat
  largestSubKeyClassName : Nat
  largestValueName : Nat
  largestValueData : Nat
  workVar : Nat
  nameSize : Nat
  classNameSize : Nat
  slack : Bytes
  name : Str
  path : Str
  cellState : CellState := .Allocated
  seq : Option Nat := none
  updatedBySeq : Option Nat := none
  values : List Value := []
  logs : Logs := {}
  subKeyOffsets : List Nat := []
  hash : Option Bytes := none
  toReturn : Nat := 0
  trackReturned : Nat := 0
  filterState : Option FilterMatchState := none
  iterIndex : Nat := 0

/-- `CellKeyNode` including `versions` and `deleted_keys`. -/
inductive Node where
  | mk (key : KeyNode) (versions : List Node) (deletedKeys : List Node)

/-- The key itself. -/
def Node.key : Node → KeyNode
  | .mk k _ _ => k
/-- `CellKeyNode::versions`. -/
def Node.versions : Node → List Node
  | .mk _ v _ => v
/-- `CellKeyNode::deleted_keys`. -/
def Node.deletedKeys : Node → List Node
  | .mk _ _ d => d
/-- Replaces the key itself. -/
def Node.setKey (n : Node) (k : KeyNode) : Node := .mk k n.versions n.deletedKeys

/-! ### State -/

/-- `State`, /repo/src/state.rs lines 148-166, without `get_full_field_info` (false) and the
hasher (a pure function of the bytes fed to it).  A `HashMap` is a partial function. -/
structure State where
  rootOffset : Nat := 0
  info : Logs := {}
  deletedKeys : Str → Option (List Node) := fun _ => none
  modifiedKeys : Str → Option (List Node) := fun _ => none
  deletedValues : Str → Option (List Value) := fun _ => none
  modifiedValues : Str × Str → Option (List Value) := fun _ => none

/-- `add` of `ModifiedValueMap`, `DeletedValueMap` and `ModifiedDeletedKeyMap`,
/repo/src/state.rs lines 36-49, 69-78, 115-124: append to the entry or create it. -/
def mapAdd {κ α : Type} [DecidableEq κ] (m : κ → Option (List α)) (k : κ) (v : α) :
    κ → Option (List α) :=
  fun k' => if k' = k then
      match m k with
      | some vs => some (vs ++ [v])
      | none => some [v]
    else m k'

/-- Removes the first element satisfying `p`; `none` when there is none. -/
def removeFirst {α : Type} (p : α → Bool) : List α → Option (List α)
  | [] => none
  | a :: as => if p a then some as else (removeFirst p as).map (a :: ·)

/-- `DeletedValueMap::remove`, /repo/src/state.rs lines 84-100. -/
def deletedValuesRemove (m : Str → Option (List Value)) (path name : Str) (hash : Bytes) :
    Str → Option (List Value) :=
  match m path with
  | none => m
  | some vs =>
    match removeFirst (fun v => v.val.name == name && v.val.hash == some hash) vs with
    | none => m
    | some vs' =>
      fun p => if p = path then (if vs'.isEmpty then none else some vs') else m p

/-- `&path[0..path.rfind('\\').unwrap_or_default()]`: everything before the last backslash,
empty when there is none. -/
def parentPath (path : Str) : Str :=
  if '\\' ∈ path then ((path.reverse.dropWhile (· != '\\')).drop 1).reverse else []

/-- `ModifiedDeletedKeyMap::remove`, /repo/src/state.rs lines 130-145.  When the list under the
parent path becomes empty the code removes the entry of `path`, not of the parent. -/
def deletedKeysRemove (m : Str → Option (List Node)) (path : Str) (hash : Bytes) :
    Str → Option (List Node) :=
  let parent := parentPath path
  match m parent with
  | none => m
  | some ks =>
    match removeFirst (fun k => k.key.hash == some hash && k.key.path == path) ks with
    | none => m
    | some ks' =>
      let m1 : Str → Option (List Node) := fun p => if p = parent then some ks' else m p
      if ks'.isEmpty then fun p => if p = path then none else m1 p else m1

/-! ### Reading key cells -/

/-- What the reading functions use of the world: the file, blake3, and the call depth the stack
has room for (see `parseSubKeyList`). -/
structure Env where
  fi : FileInfo
  hashFn : Bytes → Bytes
  depth : Nat

/-- `CellKeyNode::check_size`, /repo/src/cell_key_node.rs lines 768-771. -/
def keyCheckSize (size : Int) (inputLen : Nat) : Bool :=
  decide (72 ≤ unsignedAbs size) && decide (unsignedAbs size ≤ inputLen)

/-- `CellKeyNode::hash`, /repo/src/cell_key_node.rs lines 708-719. -/
def KeyNode.hashOf (hashFn : Bytes → Bytes) (flagBits lastWritten accessBits : Nat) : Bytes :=
  hashFn (u16ToLeBytes flagBits ++ u64ToLeBytes lastWritten ++ u32ToLeBytes accessBits)

/-- `CellKeyNode::from_bytes`, /repo/src/cell_key_node.rs lines 524-624. -/
def KeyNode.fromBytes (hashFn : Bytes → Bytes) (start : Bytes) (fileOffset : Nat) (curPath : Str)
    (seq : Option Nat) : Res (KeyNode × Bytes) := do
  let (size, input) ← Res.ofOption (leI32 start)
  if !keyCheckSize size (input.length + 4) then .err
  else do
    let (_, input) ← Res.ofOption (tag [0x6E, 0x6B] input)
    let (flagBits, input) ← Res.ofOption (leU16 input)
    let (lastWritten, input) ← Res.ofOption (leU64 input)
    let (accessBits, input) ← Res.ofOption (leU32 input)
    let (parentOffset, input) ← Res.ofOption (leI32 input)
    let (nSubKeys, input) ← Res.ofOption (leU32 input)
    let (nVolatileSubKeys, input) ← Res.ofOption (leU32 input)
    let (subKeysListOffset, input) ← Res.ofOption (leU32 input)
    let (volatileListOffset, input) ← Res.ofOption (leI32 input)
    let (nValues, input) ← Res.ofOption (leU32 input)
    let (valuesListOffset, input) ← Res.ofOption (leI32 input)
    let (securityOffset, input) ← Res.ofOption (leU32 input)
    let (classNameOffset, input) ← Res.ofOption (leI32 input)
    let (largestSubKeyName, input) ← Res.ofOption (leU32 input)
    let (largestSubKeyClassName, input) ← Res.ofOption (leU32 input)
    let (largestValueName, input) ← Res.ofOption (leU32 input)
    let (largestValueData, input) ← Res.ofOption (leU32 input)
    let (workVar, input) ← Res.ofOption (leU32 input)
    let (nameSize, input) ← Res.ofOption (leU16 input)
    let (classNameSize, input) ← Res.ofOption (leU16 input)
    let (nameBytes, input) ← Res.ofOption (take nameSize input)
    let (flags, logs) := fromBitsChecked keyNodeFlagsMask flagBits {}
    let (name, logs) ← stringFromBytes (containsFlag flags 0x20) nameBytes nameSize logs
    let (slack, input) ← Res.ofOption
      (eatRemaining input (unsignedAbs size) (start.length - input.length))
    .ok ({ fileOffset, size, flagBits, lastWritten, accessBits, parentOffset, nSubKeys,
           nVolatileSubKeys, subKeysListOffset, volatileListOffset, nValues, valuesListOffset,
           securityOffset, classNameOffset, largestSubKeyName, largestSubKeyClassName,
           largestValueName, largestValueData, workVar, nameSize, classNameSize, slack, name,
           path := curPath ++ '\\' :: name, logs,
           hash := some (KeyNode.hashOf hashFn flagBits lastWritten accessBits), seq }, input)

/-- `is_key_root`, /repo/src/cell_key_node.rs lines 518-522. -/
def KeyNode.isKeyRoot (k : KeyNode) : Bool :=
  containsFlag (fromBitsChecked keyNodeFlagsMask k.flagBits {}).1 0x4

/-- `is_filter_match_or_descendent`, /repo/src/cell_key_node.rs lines 292-297. -/
def KeyNode.isFilterMatchOrDescendent (k : KeyNode) : Bool :=
  k.filterState == some .Exact || k.filterState == some .Descendent

/-- `get_cell_size`, /repo/src/cell_key_node.rs lines 288-290. -/
def KeyNode.cellSize (k : KeyNode) : Nat := unsignedAbs k.size
/-- `is_free`, /repo/src/cell_key_node.rs lines 280-282. -/
def KeyNode.isFree (k : KeyNode) : Bool := decide (k.size > 0)
/-- `slack_offset_absolute`, /repo/src/cell_key_node.rs lines 284-286. -/
def KeyNode.slackOffset (k : KeyNode) : Nat := k.fileOffset + k.cellSize - k.slack.length

/-- `parse_key_values`, /repo/src/cell_key_node.rs lines 469-484 (the caller checked that the
offset is positive). -/
def parseKeyValues (fi : FileInfo) (n listOffset : Nat) : Option (List Nat) := do
  let slice ← getFrom fi.buffer (listOffset + fi.hbin)
  let (_, slice) ← leU32 slice
  let (list, _) ← Notatin.count leU32 n slice
  some list

/-- The loop of `read_values`, /repo/src/cell_key_node.rs lines 676-703.  Returns the values read,
the extra logs, and whether the function returned `Ok`. -/
def readValuesLoop (env : Env) (seq : Option Nat) :
    List Nat → List Value → Logs → Res (List Value × Logs × Bool)
  | [], acc, logs => .ok (acc, logs, true)
  | v :: vs, acc, logs =>
    let offset := v + env.fi.hbin
    if offset < env.fi.buffer.length then
      match KeyValue.fromBytes (env.fi.buffer.drop offset) offset seq with
      | .ok (kv, _) =>
        readValuesLoop env seq vs (acc ++ [.mk (kv.readValueBytes env.hashFn env.fi) []]) logs
      | .err => .ok (acc, logs, false)
      | .panic => .panic
    else .ok (acc, logs.add .WarningParse, true)

/-- `read_values`, /repo/src/cell_key_node.rs lines 649-706: the updated key and whether it
returned `Ok`. -/
def KeyNode.readValues (env : Env) (k : KeyNode) (seq : Option Nat) : Res (KeyNode × Bool) :=
  if 0 < k.valuesListOffset ∧ k.valuesListOffset.toNat < env.fi.buffer.length then
    if k.nValues > 1024 * 1024 then .ok ({ k with logs := k.logs.add .WarningParse }, true)
    else
      match parseKeyValues env.fi k.nValues k.valuesListOffset.toNat with
      | none => .ok ({ k with values := [] }, false)
      | some offsets =>
        match readValuesLoop env seq offsets [] k.logs with
        | .ok (values, logs, b) => .ok ({ k with values, logs }, b)
        | .err => .err
        | .panic => .panic
  else .ok (k, true)

/-- `should_read_values`, /repo/src/cell_key_node.rs lines 757-766. -/
def shouldReadValues (filter : Option Filter) (flags : FilterFlags) (selfMatch : Bool) : Bool :=
  selfMatch || (match filter with | none => true | some f => !f.isValid) || flags == .keyMatch

/-- `sort_by(|a, b| b.sequence_num.cmp(&a.sequence_num))`: `Option` orders `None` first. -/
def seqGe (a b : Option Nat) : Bool :=
  match a, b with
  | _, none => true
  | none, some _ => false
  | some x, some y => decide (y ≤ x)

/-- `str` comparison: lexicographic on bytes, which for UTF-8 is lexicographic on scalar values. -/
def strLe : Str → Str → Bool
  | [], _ => true
  | _ :: _, [] => false
  | a :: as, b :: bs =>
    if a.toNat < b.toNat then true else if a = b then strLe as bs else false

/-- Attaches the recorded older versions to a value, /repo/src/cell_key_node.rs lines 739-747. -/
def attachVersions (st : State) (path : Str) (v : Value) : Value :=
  match st.modifiedValues (path, v.val.name) with
  | some vs => .mk v.val (vs.mergeSort fun a b => seqGe a.val.seq b.val.seq)
  | none => v

/-- `update_modified_lists`, /repo/src/cell_key_node.rs lines 721-755.  The recursion through
`deleted_keys` is not bounded by the code; `fuel` is the call depth the stack has room for,
running out of it is the stack-overflow abort. -/
def updateModifiedLists (st : State) : Nat → Node → Res Node
  | 0, _ => .panic
  | fuel + 1, n =>
    let k := n.key
    let path := if k.isKeyRoot then [] else k.path
    if k.cellState.isDeletedPrimaryFile then .ok n
    else
      match attachDeleted (updateModifiedLists st fuel) k.fileOffset n.deletedKeys
          (st.deletedKeys path) with
      | .err => .err
      | .panic => .panic
      | .ok deleted =>
        let versions := match st.modifiedKeys path with
          | some vs => vs.mergeSort fun a b => seqGe a.key.seq b.key.seq
          | none => n.versions
        let values := k.values.map (attachVersions st path)
        let values := match st.deletedValues path with
          | some dv => values ++ dv.mergeSort fun a b => strLe a.val.name b.val.name
          | none => values
        .ok (.mk { k with values } versions deleted)
where
  /-- The `for dk in self.deleted_keys.iter_mut()` loop, /repo/src/cell_key_node.rs
  lines 725-731. -/
  attachLoop (update : Node → Res Node) (selfOffset : Nat) : List Node → Res (List Node)
  | [] => .ok []
  | d :: ds =>
    match (if d.key.fileOffset ≠ selfOffset then update d else .ok d) with
    | .err => .err
    | .panic => .panic
    | .ok d =>
      match attachLoop update selfOffset ds with
      | .err => .err
      | .panic => .panic
      | .ok ds => .ok (d :: ds)
  /-- `if let Some(deleted_keys) = state.deleted_keys.get(path)`, lines 723-732. -/
  attachDeleted (update : Node → Res Node) (selfOffset : Nat) (old : List Node) :
      Option (List Node) → Res (List Node)
  | none => .ok old
  | some ds => attachLoop update selfOffset ds

/-- `CellKeyNodeReadOptions`, /repo/src/cell_key_node.rs lines 120-127. -/
structure ReadOptions where
  offset : Nat
  curPath : Str
  filter : Option Filter
  selfMatch : Bool
  seq : Option Nat
  getModified : Bool

/-- The filter step of `read_from_slice`, /repo/src/cell_key_node.rs lines 315-318. -/
def filterStep (st : State) (filter : Option Filter) (k : KeyNode) : Res (FilterFlags × Nat) :=
  match filter with
  | some f => f.checkCell st.rootOffset k.isKeyRoot k.path
  | none => .ok (.iterate, st.rootOffset)

/-- The values step of `read_from_slice`, /repo/src/cell_key_node.rs lines 323-340. -/
def valuesStep (env : Env) (o : ReadOptions) (flags : FilterFlags) (k : KeyNode) : Res KeyNode :=
  if 0 < k.nValues ∧ shouldReadValues o.filter flags o.selfMatch = true then
    match k.readValues env o.seq with
    | .ok (k, true) => .ok k
    | .ok (k, false) => .ok { k with logs := k.logs.add .WarningParse }
    | .err => .err
    | .panic => .panic
  else .ok k

/-- The last step of `read_from_slice`, /repo/src/cell_key_node.rs lines 342-350. -/
def finishStep (env : Env) (st : State) (o : ReadOptions) (flags : FilterFlags) (k : KeyNode) :
    Res Node :=
  let k := if flags = .keyMatch then { k with filterState := some .Exact } else k
  if o.getModified then updateModifiedLists st env.depth (.mk k [] []) else .ok (.mk k [] [])

/-- `read_from_slice`, /repo/src/cell_key_node.rs lines 301-351.  The only part of the state it
changes is the cached root offset, which is returned. -/
def readFromSlice (env : Env) (st : State) (slice : Bytes) (o : ReadOptions) :
    Res (Option Node × Nat) :=
  match KeyNode.fromBytes env.hashFn slice o.offset o.curPath o.seq with
  | .err => .err
  | .panic => .panic
  | .ok (k, _) =>
    match filterStep st o.filter k with
    | .err => .err
    | .panic => .panic
    | .ok (flags, rootOffset) =>
      if flags = .noMatch then .ok (none, rootOffset)
      else match valuesStep env o flags k with
        | .err => .err
        | .panic => .panic
        | .ok k =>
          match finishStep env st o flags k with
          | .err => .err
          | .panic => .panic
          | .ok n => .ok (some n, rootOffset)

/-- `CellKeyNode::read`, /repo/src/cell_key_node.rs lines 355-369. -/
def readKey (env : Env) (st : State) (o : ReadOptions) : Res (Option Node × Nat) :=
  match getFrom env.fi.buffer o.offset with
  | none => .err
  | some slice => readFromSlice env st slice o

/-- The filter state a child gets in `read_sub_keys_internal`, /repo/src/cell_key_node.rs
lines 432-444. -/
def childFilterState (selfMatch filterValid : Bool) (s : Option FilterMatchState) :
    Option FilterMatchState :=
  match s with
  | none => if selfMatch then some .Descendent else if filterValid then some .None else none
  | some s => some s

/-- The loop of `read_sub_keys_internal`, /repo/src/cell_key_node.rs lines 403-449: children,
whether an exact match was seen, logs of the parent and the cached root offset. -/
def readSubKeysLoop (env : Env) (st : State) (path : Str) (filter : Filter)
    (subFilter : Option Filter) (selfMatch : Bool) (seq : Option Nat) (getModified : Bool) :
    List Nat → Nat → Logs → Res (List Node × Bool × Logs × Nat)
  | [], rootOffset, logs => .ok ([], false, logs, rootOffset)
  | off :: offs, rootOffset, logs =>
    match readKey env { st with rootOffset }
        { offset := off, curPath := path, filter := subFilter, selfMatch, seq, getModified } with
    | .panic => .panic
    | .err =>
      readSubKeysLoop env st path filter subFilter selfMatch seq getModified offs rootOffset
        (logs.add .WarningParse)
    | .ok (none, rootOffset) =>
      readSubKeysLoop env st path filter subFilter selfMatch seq getModified offs rootOffset logs
    | .ok (some n, rootOffset) =>
      match readSubKeysLoop env st path filter subFilter selfMatch seq getModified offs
          rootOffset logs with
      | .ok (ns, found, logs, rootOffset) =>
        let fs := childFilterState selfMatch filter.isValid n.key.filterState
        .ok (n.setKey { n.key with filterState := fs } :: ns,
          n.key.filterState == some .Exact || found, logs, rootOffset)
      | .err => .err
      | .panic => .panic

/-- Result of `read_sub_keys_internal`: the children, `found_key`, and the updated `self` and
cached root offset. -/
structure SubKeysResult where
  children : List Node
  found : Bool
  self : Node
  rootOffset : Nat

/-- `read_sub_keys_internal`, /repo/src/cell_key_node.rs lines 371-467. -/
def readSubKeysInternal (env : Env) (st : State) (self : Node) (filter : Filter)
    (seq : Option Nat) (getModified : Bool) : Res SubKeysResult :=
  let k := self.key
  let warn : Node := self.setKey { k with logs := k.logs.add .WarningParse }
  if k.cellState = .Allocated then
    if k.nSubKeys > 1024 * 1024 then .ok ⟨[], false, warn, st.rootOffset⟩
    else if 0 < k.nSubKeys then
      match parseSubKeyList env.fi env.depth k.subKeysListOffset with
      | .panic => .panic
      | .err => .ok ⟨[], false, warn, st.rootOffset⟩
      | .ok offsets =>
        let selfMatch := k.isFilterMatchOrDescendent
        let subFilter := if selfMatch && filter.returnSubKeys then none else some filter
        match readSubKeysLoop env st k.path filter subFilter selfMatch seq getModified offsets
            st.rootOffset k.logs with
        | .ok (children, found, logs, rootOffset) =>
          .ok ⟨children, found, self.setKey { k with logs, subKeyOffsets := offsets }, rootOffset⟩
        | .err => .err
        | .panic => .panic
    else .ok ⟨[], false, self, st.rootOffset⟩
  else .ok ⟨[], false, self, st.rootOffset⟩

/-- `read_sub_keys`, /repo/src/cell_key_node.rs lines 133-142. -/
def readSubKeys (env : Env) (st : State) (self : Node) : Res (List Node) :=
  match readSubKeysInternal env st self {} none true with
  | .ok r => .ok r.children
  | .err => .err
  | .panic => .panic

/-- `get_sub_key_internal`, /repo/src/cell_key_node.rs lines 626-647.  Recursion as in
`parseSubKeyList`: `fuel` is the call depth the stack has room for. -/
def getSubKeyInternal (env : Env) (filter : Filter) (seq : Option Nat) :
    Nat → State → Node → Res (Option Node × Nat)
  | 0, _, _ => .panic
  | fuel + 1, st, self =>
    match readSubKeysInternal env st self filter seq false with
    | .panic => .panic
    | .err => .err
    | .ok r =>
      if r.found then .ok (r.children.head?, r.rootOffset)
      else goKids (fun ro c => getSubKeyInternal env filter seq fuel { st with rootOffset := ro } c)
        r.rootOffset r.children
where
  /-- The `for mut child in children` loop, /repo/src/cell_key_node.rs lines 641-645. -/
  goKids (f : Nat → Node → Res (Option Node × Nat)) : Nat → List Node → Res (Option Node × Nat)
  | ro, [] => .ok (none, ro)
  | ro, c :: cs =>
    match f ro c with
    | .ok (some n, ro) => .ok (some n, ro)
    | .ok (none, ro) => goKids f ro cs
    | .err => .err
    | .panic => .panic

/-- `get_sub_key_by_path`, /repo/src/cell_key_node.rs lines 144-155. -/
def getSubKeyByPath (env : Env) (st : State) (self : Node) (subPath : Str) :
    Res (Option Node × Nat) :=
  if subPath = [] then .ok (some self, st.rootOffset)
  else
    let filter := match ((({} : FilterBuilder).addKeyPath (self.key.path ++ '\\' :: subPath)).keyPathHasRoot true).build with
      | .ok f => f
      | _ => {}
    getSubKeyInternal env filter none env.depth st self

/-- `get_sub_key_by_index`, /repo/src/cell_key_node.rs lines 157-207: the result and the updated
`self` (logs only). -/
def getSubKeyByIndex (env : Env) (st : State) (self : Node) (index : Nat) :
    Res (Option Node × Node) :=
  let k := self.key
  let warn : Node := self.setKey { k with logs := k.logs.add .WarningParse }
  if 0 < k.nSubKeys then
    match parseSubKeyList env.fi env.depth k.subKeysListOffset with
    | .panic => .panic
    | .err => .ok (none, warn)
    | .ok offsets =>
      match offsets[index]? with
      | none => .ok (none, self)
      | some offset =>
        match readKey env st ⟨offset, k.path, none, k.isFilterMatchOrDescendent, none, true⟩ with
        | .panic => .panic
        | .err => .ok (none, warn)
        | .ok (some n, _) => .ok (some n, self)
        | .ok (none, _) => .ok (none, self)
  else .ok (none, self)

/-- `init_sub_key_iter`, /repo/src/cell_key_node.rs lines 209-211. -/
def initSubKeyIter (self : Node) : Node := self.setKey { self.key with iterIndex := 0 }

/-- `next_sub_key`, /repo/src/cell_key_node.rs lines 213-221. -/
def nextSubKey (env : Env) (st : State) (self : Node) : Res (Option Node × Node) :=
  match getSubKeyByIndex env st self self.key.iterIndex with
  | .ok (some n, self) =>
    .ok (some n, self.setKey { self.key with iterIndex := self.key.iterIndex + 1 })
  | .ok (none, self) => .ok (none, self)
  | .err => .err
  | .panic => .panic

/-- `get_value`, /repo/src/cell_key_node.rs lines 223-230. -/
def KeyNode.getValue (k : KeyNode) (findName : Str) : Option Value :=
  k.values.find? fun v => asciiLower v.val.name == asciiLower findName

/-- `next_value`, /repo/src/cell_key_node.rs lines 239-247. -/
def KeyNode.nextValue (k : KeyNode) (i : Nat) : Option (Value × Nat) :=
  match k.values[i]? with
  | some v => some (v, i + 1)
  | none => none

/-- `has_or_is_recovered`, /repo/src/cell_key_node.rs lines 788-792. -/
def Node.hasOrIsRecovered (n : Node) : Bool :=
  n.key.cellState.isDeleted || n.key.cellState == .ModifiedTransactionLog || !n.versions.isEmpty

end Notatin
