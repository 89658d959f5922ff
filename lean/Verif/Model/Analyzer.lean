import Verif.Model.Iterator
/-
Model of the comparison of the keys and values before and after a replayed log entry,
/repo/src/transaction_log.rs lines 325-653 (`get_reg_items`, `TransactionAnalyzer`) and
/repo/src/reg_item_map.rs.

The order in which a `HashMap` is iterated is not determined; it is a parameter `order`.  Log
messages are dropped, so `prepend_all` (/repo/src/log.rs) has no effect.
-/
namespace Notatin

/-- `RegItemMapKey`, /repo/src/reg_item_map.rs lines 21-34: key path and value name. -/
abbrev ItemKey := Str × Option Str

/-- `RegItemMapValue`, /repo/src/reg_item_map.rs lines 36-51. -/
structure Item where
  hash : Bytes
  off : Nat
  seq : Nat
deriving Repr, DecidableEq

/-- `RegItemMap`, /repo/src/reg_item_map.rs line 19: a `HashMap`, here the list of its entries. -/
abbrev RegItemMap := List (ItemKey × Item)

/-- `HashMap::get`. -/
def RegItemMap.get (m : RegItemMap) (k : ItemKey) : Option Item :=
  (m.find? fun x => decide (x.1 = k)).map Prod.snd

/-- `HashMap::remove`; what was removed is `RegItemMap.get`. -/
def RegItemMap.erase (m : RegItemMap) (k : ItemKey) : RegItemMap := m.filter fun x => decide (x.1 ≠ k)

/-- `HashMap::insert`: replaces the entry with that key, if any. -/
def RegItemMap.insert (m : RegItemMap) (k : ItemKey) (i : Item) : RegItemMap := m.erase k ++ [(k, i)]

/-- What the two loops use of a key or value: where it is filed, its hash, its offset and its
warnings (the `Cell` trait object of `NewItemInfo`, /repo/src/transaction_log.rs lines 373-377). -/
structure Seen where
  key : ItemKey
  hash : Option Bytes
  off : Nat
  logs : Logs

/-- A key followed by its values, in the order the loops visit them, /repo/src/transaction_log.rs
lines 332-351, 398-426. -/
def seenOf (n : Node) : List Seen :=
  ⟨(n.key.path, none), n.key.hash, n.key.fileOffset, n.key.logs⟩ ::
    n.key.values.map fun v => ⟨(n.key.path, some v.val.name), v.val.hash, v.val.fileOffset, v.val.logs⟩

/-- The loop of `get_reg_items`, /repo/src/transaction_log.rs lines 332-351; a missing hash panics. -/
def regItemsLoop (seq : Nat) : List Seen → RegItemMap → Res RegItemMap
  | [], m => .ok m
  | s :: ss, m =>
    match s.hash with
    | none => .panic
    | some h => regItemsLoop seq ss (m.insert s.key ⟨h, s.off, seq⟩)

/-- `RegItemNeeded`, /repo/src/transaction_log.rs lines 357-371. -/
structure Needed where
  path : Str
  off : Nat
  seq : Nat
deriving Repr, DecidableEq

/-- What the first loop of `get_latest_reg_items` threads, /repo/src/transaction_log.rs
lines 392-394. -/
structure Compared where
  prior : RegItemMap
  latest : RegItemMap := []
  keys : List Needed := []
  values : List Needed := []
  logs : Logs := {}

/-- Puts a needed item on the list of keys or of values (the caller of `handle_new_item` passes the
list, /repo/src/transaction_log.rs lines 405, 417). -/
def Compared.need (c : Compared) (k : ItemKey) (n : Needed) : Compared :=
  match k.2 with
  | none => { c with keys := c.keys ++ [n] }
  | some _ => { c with values := c.values ++ [n] }

/-- The end of `handle_new_item`, /repo/src/transaction_log.rs lines 567-578. -/
def Compared.file (c : Compared) (s : Seen) (i : Item) : Compared :=
  { c with latest := c.latest.insert s.key i, logs := c.logs.extend s.logs }

/-- `handle_new_item`, /repo/src/transaction_log.rs lines 533-579. -/
def handleNewItem (newSeq : Nat) (c : Compared) (s : Seen) : Res Compared :=
  match s.hash with
  | none => .panic
  | some h =>
    match c.prior.get s.key with
    | some p =>
      let c := { c with prior := c.prior.erase s.key }
      if h = p.hash then .ok (c.file s ⟨h, s.off, p.seq⟩)
      else .ok ((c.need s.key ⟨s.key.1, p.off, p.seq⟩).file s ⟨h, s.off, newSeq⟩)
    | none => .ok (c.file s ⟨h, s.off, newSeq⟩)

/-- The first loop of `get_latest_reg_items`, /repo/src/transaction_log.rs lines 398-426. -/
def compareLoop (newSeq : Nat) : List Seen → Compared → Res Compared
  | [], c => .ok c
  | s :: ss, c =>
    match handleNewItem newSeq c s with
    | .err => .err
    | .panic => .panic
    | .ok c => compareLoop newSeq ss c

/-- `ModifiedListType`, /repo/src/transaction_log.rs. -/
inductive ListType where
  | updated | deleted
deriving Repr, DecidableEq

/-- The options `add_full_key_to_list` reads with, /repo/src/transaction_log.rs lines 592-600. -/
def priorOptions (path : Str) (off seq : Nat) : ReadOptions :=
  { offset := off, curPath := parentPath path, filter := none, selfMatch := false, seq := some seq,
    getModified := false }

/-- The record made of a key read from the prior file, /repo/src/transaction_log.rs
lines 603-615. -/
def keyRecord (newSeq : Nat) (t : ListType) (n : Node) : Node :=
  n.setKey
    { n.key with
      updatedBySeq := some newSeq
      values := []
      cellState := match t with
        | .updated => .ModifiedTransactionLog
        | .deleted => .DeletedTransactionLog }

/-- Where the record of a key goes, /repo/src/transaction_log.rs lines 606-615. -/
def fileKey (st : State) (path : Str) (t : ListType) (n : Node) : State :=
  match t with
  | .updated => { st with modifiedKeys := mapAdd st.modifiedKeys path n }
  | .deleted => { st with deletedKeys := mapAdd st.deletedKeys (parentPath path) n }

/-- `add_full_key_to_list`, /repo/src/transaction_log.rs lines 581-618, with its callers' handling
of errors; `env` is the prior file.  Returns the state and the logs. -/
def addFullKey (env : Env) (newSeq : Nat) (t : ListType) (path : Str) (off seq : Nat)
    (x : State × Logs) : Res (State × Logs) :=
  match readKey env x.1 (priorOptions path off seq) with
  | .panic => .panic
  | .err => .ok (x.1, x.2.add .WarningTransactionLog)
  | .ok (none, ro) => .ok ({ x.1 with rootOffset := ro }, x.2)
  | .ok (some n, ro) =>
    .ok (fileKey { x.1 with rootOffset := ro } path t (keyRecord newSeq t n), x.2)

/-- The record made of a value read from the prior file, /repo/src/transaction_log.rs
lines 639-651. -/
def valueRecord (env : Env) (newSeq : Nat) (t : ListType) (kv : KeyValue) : Value :=
  .mk
    { kv.readValueBytes env.hashFn env.fi with
      updatedBySeq := some newSeq
      cellState := match t with
        | .updated => .ModifiedTransactionLog
        | .deleted => .DeletedTransactionLog } []

/-- Where the record of a value goes, /repo/src/transaction_log.rs lines 641-651. -/
def fileValue (st : State) (path : Str) (t : ListType) (v : Value) : State :=
  match t with
  | .updated => { st with modifiedValues := mapAdd st.modifiedValues (path, v.val.name) v }
  | .deleted => { st with deletedValues := mapAdd st.deletedValues path v }

/-- `add_full_value_to_list`, /repo/src/transaction_log.rs lines 620-653, with its callers'
handling of errors. -/
def addFullValue (env : Env) (newSeq : Nat) (t : ListType) (path : Str) (off seq : Nat)
    (x : State × Logs) : Res (State × Logs) :=
  match getFrom env.fi.buffer off with
  | none => .ok (x.1, x.2.add .WarningTransactionLog)
  | some slice =>
    match KeyValue.fromBytes slice off (some seq) with
    | .panic => .panic
    | .err => .ok (x.1, x.2.add .WarningTransactionLog)
    | .ok (kv, _) => .ok (fileValue x.1 path t (valueRecord env newSeq t kv), x.2)

/-- A loop that runs `f` on each element. -/
def forEach {α β : Type} (f : α → β → Res β) : List α → β → Res β
  | [], b => .ok b
  | a :: as, b =>
    match f a b with
    | .err => .err
    | .panic => .panic
    | .ok b => forEach f as b

/-- One item left over from before, /repo/src/transaction_log.rs lines 471-512. -/
def addDeleted (env : Env) (newSeq : Nat) (x : ItemKey × Item) (y : State × Logs) :
    Res (State × Logs) :=
  match x.1.2 with
  | some _ => addFullValue env newSeq .deleted x.1.1 x.2.off x.2.seq y
  | none => addFullKey env newSeq .deleted x.1.1 x.2.off x.2.seq y

/-- One current item taken off the deleted lists, /repo/src/transaction_log.rs lines 514-528. -/
def takeOff (st : State) (x : ItemKey × Item) : State :=
  match x.1.2 with
  | some name =>
    { st with deletedValues := deletedValuesRemove st.deletedValues x.1.1 name x.2.hash }
  | none => { st with deletedKeys := deletedKeysRemove st.deletedKeys x.1.1 x.2.hash }

/-- `get_latest_reg_items`, /repo/src/transaction_log.rs lines 386-531, on the items the iteration
over the updated file yields.  `env` is the file before the entry. -/
def analyzeSeen (env : Env) (order : RegItemMap → RegItemMap) (newSeq : Nat) (seen : List Seen)
    (prior : RegItemMap) (st : State) : Res (State × RegItemMap × Logs) :=
  match compareLoop newSeq seen { prior } with
  | .err => .err
  | .panic => .panic
  | .ok c =>
    match forEach (fun n => addFullKey env newSeq .updated n.path n.off n.seq) c.keys (st, c.logs) with
    | .err => .err
    | .panic => .panic
    | .ok x =>
      match forEach (fun n => addFullValue env newSeq .updated n.path n.off n.seq) c.values x with
      | .err => .err
      | .panic => .panic
      | .ok x =>
        match forEach (addDeleted env newSeq) (order c.prior) x with
        | .err => .err
        | .panic => .panic
        | .ok x => .ok ((order c.latest).foldl takeOff x.1, c.latest, x.2)

/-- `get_latest_reg_items`, /repo/src/transaction_log.rs lines 386-531: `prior` is the file before
the entry, `env` after it; `none` means the iteration is still running. -/
def getLatestRegItems (prior env : Env) (order : RegItemMap → RegItemMap) (steps newSeq : Nat)
    (priorItems : RegItemMap) (st : State) : Option (Res (State × RegItemMap × Logs)) :=
  match initRoot env st with
  | .err => some .err
  | .panic => some .panic
  | .ok (root, ro) =>
    let st := { st with rootOffset := ro }
    match collect (nextPre env) steps (.start st root {} false false) with
    | none => none
    | some .err => some .err
    | some .panic => some .panic
    | some (.ok ns) => some (analyzeSeen prior order newSeq (ns.flatMap seenOf) priorItems st)

/-- `get_reg_items`, /repo/src/transaction_log.rs lines 325-354, with recovery on. -/
def getRegItems (env : Env) (steps seq : Nat) (st : State) : Option (Res (RegItemMap × State)) :=
  match initRoot env st with
  | .err => some .err
  | .panic => some .panic
  | .ok (root, ro) =>
    let st := { st with rootOffset := ro }
    match collect (nextPre env) steps (.start st root {} true false) with
    | none => none
    | some .err => some .err
    | some .panic => some .panic
    | some (.ok ns) =>
      match regItemsLoop seq (ns.flatMap seenOf) [] with
      | .ok m => some (.ok (m, st))
      | .err => some .err
      | .panic => some .panic

/-- What `update_parser` does with the result, /repo/src/transaction_log.rs lines 289-312: an error
is logged and the items stay what they are. -/
def analyzeEntry (prior env : Env) (order : RegItemMap → RegItemMap) (steps newSeq : Nat)
    (x : State × RegItemMap) : Option (Res (State × RegItemMap)) :=
  match getLatestRegItems prior env order steps newSeq x.2 x.1 with
  | none => none
  | some .panic => some .panic
  | some .err => some (.ok ({ x.1 with info := x.1.info.add .WarningTransactionLog }, x.2))
  | some (.ok (st, items, logs)) => some (.ok ({ st with info := st.info.extend logs }, items))

end Notatin
