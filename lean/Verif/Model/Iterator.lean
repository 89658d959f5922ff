import Verif.Model.KeyNode
/-
Model of the iterators and of the direct key accessors, /repo/src/parser.rs lines 73-96,
324-336 and 389-690.
-/
namespace Notatin

/-- `CellKeyNode::default()` (derived, /repo/src/cell_key_node.rs line 95-118). -/
def defaultKey : KeyNode :=
  { fileOffset := 0, size := 0, flagBits := 0, lastWritten := 0, accessBits := 0,
    parentOffset := 0, nSubKeys := 0, nVolatileSubKeys := 0, subKeysListOffset := 0,
    volatileListOffset := 0, nValues := 0, valuesListOffset := 0, securityOffset := 0,
    classNameOffset := 0, largestSubKeyName := 0, largestSubKeyClassName := 0,
    largestValueName := 0, largestValueData := 0, workVar := 0, nameSize := 0,
    classNameSize := 0, slack := [], name := [], path := [] }

/-- `ParserIteratorContext`, /repo/src/parser.rs lines 582-591.  The two stacks are lists with the
top first; the `BTreeSet` of offsets is a list. -/
structure IterCtx where
  state : State
  filter : Filter
  stack : List Node
  seen : List Nat
  ret : List Node
  getModified : Bool
  includeAncestors : Bool

/-- `ParserIteratorContext::from_parser`, /repo/src/parser.rs lines 594-613, followed by the
setters of `ParserIterator` (lines 655-677): the root of the parser (the default key when there is
none) is on the stack and its offset is marked. -/
def IterCtx.start (st : State) (root : Option Node) (filter : Filter)
    (getModified includeAncestors : Bool) : IterCtx :=
  let root := root.getD (.mk defaultKey [] [])
  { state := st, filter, stack := [root], seen := [root.key.fileOffset], ret := [], getModified,
    includeAncestors }

/-- `push_check_stack_to_traverse`, /repo/src/parser.rs lines 615-629 (the error is dropped by the
callers). -/
def IterCtx.pushCheck (ctx : IterCtx) (n : Node) : IterCtx :=
  if n.key.fileOffset ∈ ctx.seen then ctx
  else { ctx with seen := n.key.fileOffset :: ctx.seen, stack := n :: ctx.stack }

/-- A deleted key takes over the filter state of its parent, /repo/src/parser.rs lines 423, 471. -/
def inheritFilterState (s : Option FilterMatchState) (d : Node) : Node :=
  d.setKey { d.key with filterState := s }

/-- Reading the children of a node and pushing them, /repo/src/parser.rs lines 409-421, 457-469.
`children.len() as u32` does not wrap: there are at most 2^32 - 1 list entries in a file the
offsets can address. -/
def pushKids (env : Env) (ctx : IterCtx) (node : Node) : Res (Node × IterCtx) :=
  if 0 < node.key.nSubKeys then
    match readSubKeysInternal env ctx.state node ctx.filter none ctx.getModified with
    | .ok r =>
      .ok (r.self.setKey { r.self.key with toReturn := r.children.length },
        r.children.reverse.foldl IterCtx.pushCheck
          { ctx with state := { ctx.state with rootOffset := r.rootOffset } })
    | .err => .err
    | .panic => .panic
  else .ok (node, ctx)

/-- The loop over `deleted_keys`, /repo/src/parser.rs lines 422-425, 470-473. -/
def pushDeleted (node : Node) (ctx : IterCtx) : Node × IterCtx :=
  let ds := node.deletedKeys.map (inheritFilterState node.key.filterState)
  (.mk node.key node.versions ds, { ctx with stack := ds.reverse ++ ctx.stack })

/-- One round of the loop of `next_key_preorder`, /repo/src/parser.rs lines 456-480: the popped
node `node` is expanded and returned if it is to be shown. -/
def preStep (env : Env) (ctx : IterCtx) (node : Node) : Res (Option Node × IterCtx) :=
  match pushKids env ctx node with
  | .err => .err
  | .panic => .panic
  | .ok (node, ctx) =>
    let (node, ctx) := pushDeleted node ctx
    if ctx.includeAncestors || !ctx.filter.isValid || node.key.isFilterMatchOrDescendent then
      .ok (some node, ctx)
    else .ok (none, ctx)

/-- `next_key_preorder`, /repo/src/parser.rs lines 452-482, with at most `steps` rounds; `none`
means it is still running. -/
def nextPre (env : Env) : Nat → IterCtx → Option (Res (Option Node × IterCtx))
  | 0, _ => none
  | steps + 1, ctx =>
    match ctx.stack with
    | [] => some (.ok (none, ctx))
    | node :: rest =>
      match preStep env { ctx with stack := rest } node with
      | .err => some .err
      | .panic => some .panic
      | .ok (some n, ctx) => some (.ok (some n, ctx))
      | .ok (none, ctx) => nextPre env steps ctx

/-- `last.iteration_state.track_returned += 1` on the top of the return stack,
/repo/src/parser.rs lines 426-432. -/
def bumpTop : List Node → List Node
  | [] => []
  | n :: ns => n.setKey { n.key with trackReturned := n.key.trackReturned + 1 } :: ns

/-- Pops a finished node from the return stack, /repo/src/parser.rs lines 397-406. -/
def popFinished : List Node → Option (Node × List Node)
  | [] => none
  | n :: ns => if n.key.trackReturned = n.key.toReturn then some (n, ns) else none

/-- `next_key_postorder`, /repo/src/parser.rs lines 389-450, with at most `steps` rounds. -/
def nextPost (env : Env) : Nat → IterCtx → Option (Res (Option Node × IterCtx))
  | 0, _ => none
  | steps + 1, ctx =>
    match ctx.stack with
    | [] =>
      match ctx.ret with
      | [] => some (.ok (none, ctx))
      | n :: ns =>
        if ctx.includeAncestors || n.key.filterState != some .None then
          some (.ok (some n, { ctx with ret := ns }))
        else some (.ok (none, { ctx with ret := ns }))
    | node :: rest =>
      match popFinished ctx.ret with
      | some (n, ns) => some (.ok (some n, { ctx with ret := ns }))
      | none =>
        match pushKids env { ctx with stack := rest } node with
        | .err => some .err
        | .panic => some .panic
        | .ok (node, ctx) =>
          let (node, ctx) := pushDeleted node ctx
          nextPost env steps { ctx with ret := node :: bumpTop ctx.ret }

/-- Calling `next` until it returns `None`: all keys of a `for` loop over the iterator; at most
`steps` calls of at most `steps` rounds. -/
def collect (next : Nat → IterCtx → Option (Res (Option Node × IterCtx))) :
    Nat → IterCtx → Option (Res (List Node))
  | 0, _ => none
  | steps + 1, ctx =>
    match next (steps + 1) ctx with
    | none => none
    | some .err => some .err
    | some .panic => some .panic
    | some (.ok (none, _)) => some (.ok [])
    | some (.ok (some n, ctx)) =>
      match collect next steps ctx with
      | some (.ok ns) => some (.ok (n :: ns))
      | r => r

/-- `count_all_keys_and_values`, /repo/src/parser.rs lines 324-336, on the keys iterated. -/
def countKeysValues (ns : List Node) : Nat × Nat :=
  ns.foldl (fun (k, v) n => (k + 1, v + n.key.values.length)) (0, 0)

/-! ### Direct access -/

/-- `get_root_key`, /repo/src/parser.rs lines 487-507: `i32 as usize` of a negative offset is a
huge number, adding the bin offset to it overflows (panics in a debug build). -/
def getRootKey (env : Env) (st : State) (rootCellOffset : Int) : Res (Option Node × Nat) :=
  if rootCellOffset < 0 then .panic
  else readKey env st
    { offset := rootCellOffset.toNat + env.fi.hbin, curPath := [], filter := none,
      selfMatch := true, seq := none, getModified := true }

/-- `get_sub_key`, /repo/src/parser.rs lines 509-524.  Slicing the path at the root offset panics
when the offset is past its end. -/
def getSubKey (env : Env) (st : State) (self : Node) (name : Str) : Res (Option Node × Nat) :=
  let ro := cachedRootOffset st.rootOffset self.key.path
  match dropBytes ro self.key.path with
  | none => .panic
  | some sans =>
    match (({} : FilterBuilder).addKeyPath (sans ++ '\\' :: name)).build with
    | .err => .err
    | .panic => .panic
    | .ok filter =>
      match readSubKeysInternal env { st with rootOffset := ro } self filter none false with
      | .ok r => .ok (r.children.head?, r.rootOffset)
      | .err => .err
      | .panic => .panic

/-- The path handling of `get_key`, /repo/src/parser.rs lines 534-543. -/
def lookupPath (keyPath : Str) (hasRoot : Bool) : Str :=
  let p := trimStartBackslash keyPath
  if hasRoot then (if '\\' ∈ p then (p.dropWhile (· != '\\')).drop 1 else []) else p

/-- `get_key`, /repo/src/parser.rs lines 526-552; an error from `get_root_key` is `Ok(None)`. -/
def getKey (env : Env) (st : State) (rootCellOffset : Int) (keyPath : Str) (hasRoot : Bool) :
    Res (Option Node × Nat) :=
  match getRootKey env st rootCellOffset with
  | .panic => .panic
  | .err => .ok (none, st.rootOffset)
  | .ok (none, ro) => .ok (none, ro)
  | .ok (some root, ro) =>
    getSubKeyByPath env { st with rootOffset := ro } root (lookupPath keyPath hasRoot)

/-- `truncate` at the last backslash, unchanged when there is none,
/repo/src/parser.rs lines 559-564. -/
def cutLastSegment (path : Str) : Str := if '\\' ∈ path then parentPath path else path

/-- `get_parent_key`, /repo/src/parser.rs lines 554-579. -/
def getParentKey (env : Env) (st : State) (self : Node) : Res (Option Node × Nat) :=
  if self.key.parentOffset < 0 then .panic
  else readKey env st
    { offset := self.key.parentOffset.toNat + env.fi.hbin,
      curPath := cutLastSegment (cutLastSegment self.key.path), filter := none, selfMatch := true,
      seq := none, getModified := true }

/-! ### The root of the iteration -/

/-- `HiveBinHeader`, /repo/src/hive_bin_header.rs lines 12-27. -/
structure HiveBinHeader where
  fileOffset : Nat
  offsetFromFirst : Nat
  size : Nat
  unknown1 : Nat
  unknown2 : Nat
  timestamp : Int
  spare : Nat
deriving Repr, DecidableEq

/-- `HiveBinHeader::from_bytes`, /repo/src/hive_bin_header.rs lines 30-51. -/
def HiveBinHeader.fromBytes (fileOffset : Nat) (input : Bytes) : Option (HiveBinHeader × Bytes) := do
  let (_, input) ← tag [0x68, 0x62, 0x69, 0x6E] input
  let (offsetFromFirst, input) ← leU32 input
  let (size, input) ← leU32 input
  let (unknown1, input) ← leU32 input
  let (unknown2, input) ← leU32 input
  let (time, input) ← leU64 input
  let (spare, input) ← leU32 input
  some ({ fileOffset, offsetFromFirst, size, unknown1, unknown2,
          timestamp := dateTimeFromFiletime time, spare }, input)

/-- `init_root`, /repo/src/parser.rs lines 73-95: the key cell right after the first bin header. -/
def initRoot (env : Env) (st : State) : Res (Option Node × Nat) :=
  match getFrom env.fi.buffer env.fi.hbin with
  | none => .err
  | some input =>
    match HiveBinHeader.fromBytes env.fi.hbin input with
    | none => .err
    | some (_, rest) =>
      readKey env st
        { offset := env.fi.buffer.length - rest.length, curPath := [], filter := none,
          selfMatch := true, seq := none, getModified := true }

end Notatin
