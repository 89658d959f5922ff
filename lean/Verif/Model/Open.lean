import Verif.Model.Replay
import Verif.Model.Recover
import Verif.Model.Analyzer
/-
Opening a hive as a whole: /repo/src/parser_builder.rs and `Parser::init`, /repo/src/parser.rs
lines 57-71, with the recovery functions that `Model/Replay.lean` leaves open.
-/
namespace Notatin

/-- What opening a hive uses of the world: blake3, the call depth the stack has room for, the
iteration order of hash maps, and the number of steps waited for. -/
structure World where
  hashFn : Bytes → Bytes
  depth : Nat
  order : RegItemMap → RegItemMap
  steps : Nat

/-- The reading environment of a file whose hive bins start at 4096 (they always do: the header
parser consumes 4096 bytes, see `baseBlock_frame`). -/
def World.env (w : World) (buffer : Bytes) : Env := ⟨⟨4096, buffer⟩, w.hashFn, w.depth⟩

/-- What recovery has collected: the state and the items of the last state of the file; `none` when
it does not end within the steps. -/
abbrev Recovery := Option (Res (State × RegItemMap))

/-- Lines 267-271 and 289-314 of /repo/src/transaction_log.rs: nothing without recovery. -/
def World.analyze (w : World) (recover : Bool) (prior : Bytes) (seq : Nat) (new : Bytes) :
    Recovery → Recovery
  | some (.ok x) =>
    if recover then analyzeEntry (w.env prior) (w.env new) w.order w.steps seq x else some (.ok x)
  | s => s

/-- `get_reg_items(self, 0)`, /repo/src/transaction_log.rs lines 325-354: nothing without
recovery; an error ends the opening (`?`, /repo/src/parser.rs line 268). -/
def World.initItems (w : World) (recover : Bool) (buffer : Bytes) : Recovery → Res Recovery
  | some (.ok x) =>
    if recover then
      match getRegItems (w.env buffer) w.steps 0 x.1 with
      | none => .ok none
      | some .err => .err
      | some .panic => .panic
      | some (.ok (items, st)) => .ok (some (.ok (st, items)))
    else .ok (some (.ok x))
  | s => .ok s

/-- `if recover_deleted { self.init_recover_deleted()?; }`, /repo/src/parser.rs lines 64-66. -/
def World.scan (w : World) (recover : Bool) (buffer : Bytes) (bb : BaseBlock) : Recovery → Res Recovery
  | some (.ok x) =>
    if recover then
      match initRecoverDeleted (w.env buffer) w.steps bb.base.hiveBinsDataSize x.1 with
      | none => .ok none
      | some .err => .err
      | some .panic => .panic
      | some (.ok st) => .ok (some (.ok (st, x.2)))
    else .ok (some (.ok x))
  | s => .ok s

/-- `Parser`, /repo/src/parser.rs lines 46-54, after opening (without `update_console`). -/
structure HiveParser where
  env : Env
  header : BaseBlock
  state : State
  root : Option Node

/-- `ParserBuilderBase`, `ParserBuilderFromPath` and `ParserBuilderFromFile`,
/repo/src/parser_builder.rs lines 26-36, 73-77: the files are their contents (opening them is
assumed to succeed), `update_console` is left out. -/
structure Builder where
  primary : Bytes
  logs : List Bytes := []
  filter : Option Filter := none
  recover : Bool := false
  fullInfo : Bool := false

/-- `recover_deleted`, /repo/src/parser_builder.rs lines 40-43, 85-88. -/
def Builder.recoverDeleted (b : Builder) (recover : Bool) : Builder := { b with recover := recover }

/-- `get_full_field_info`, /repo/src/parser_builder.rs lines 45-48, 90-93. -/
def Builder.getFullFieldInfo (b : Builder) (full : Bool) : Builder := { b with fullInfo := full }

/-- `with_transaction_log`, /repo/src/parser_builder.rs lines 50-53, 95-98. -/
def Builder.withTransactionLog (b : Builder) (log : Bytes) : Builder := { b with logs := b.logs ++ [log] }

/-- `with_filter`, /repo/src/parser_builder.rs lines 80-83. -/
def Builder.withFilter (b : Builder) (f : Filter) : Builder := { b with filter := some f }

/-- `build`, /repo/src/parser_builder.rs lines 132-157, with `Parser::init`, /repo/src/parser.rs
lines 57-71.  `base.filter` is not used.  The log entries are the ones of the code, not in its
order; `get_full_field_info` only decides what the exports show (`full` in `Model/Json.lean`). -/
def Builder.build (w : World) (b : Builder) : Option (Res HiveParser) :=
  match TransactionLog.parse b.logs with
  | .err => some .err
  | .panic => some .panic
  | .ok (logs, warn) =>
    match openHive (w.analyze b.recover) (w.initItems b.recover) (w.scan b.recover) b.primary
        (some (.ok ({}, []))) logs with
    | .err => some .err
    | .panic => some .panic
    | .ok (supported, h) =>
      match h.recovery with
      | none => none
      | some .err => some .err
      | some .panic => some .panic
      | some (.ok (st, _)) =>
        let info := (h.info.extend st.info).extend (warn.getD {})
        let st := { st with info }
        let env : Env := ⟨⟨h.hbinOffset, h.buffer⟩, w.hashFn, w.depth⟩
        if supported then
          match initRoot env st with
          | .err => some .err
          | .panic => some .panic
          | .ok (root, ro) => some (.ok ⟨env, h.baseBlock, { st with rootOffset := ro }, root⟩)
        else some (.ok ⟨env, h.baseBlock, st, none⟩)

/-- A `for` loop over `ParserIterator::new(&parser)` with the given options,
/repo/src/parser.rs lines 632-686; at most `steps` rounds. -/
def HiveParser.iterate (p : HiveParser) (steps : Nat) (filter : Filter := {}) (postorder : Bool := false)
    (getModified : Bool := true) (ancestors : Bool := false) : Option (Res (List Node)) :=
  let ctx := IterCtx.start p.state p.root filter getModified ancestors
  if postorder then collect (nextPost p.env) steps ctx else collect (nextPre p.env) steps ctx

/-- What a `for` loop over the keys makes of them, if it comes to its end. -/
def overKeys {α : Type} (f : List Node → α) : Option (Res (List Node)) → Option (Res α)
  | none => none
  | some .err => some .err
  | some .panic => some .panic
  | some (.ok ns) => some (.ok (f ns))

/-- `count_all_keys_and_values`, /repo/src/parser.rs lines 324-336; at most `steps` rounds. -/
def HiveParser.countAll (p : HiveParser) (steps : Nat) (filter : Option Filter) : Option (Res (Nat × Nat)) :=
  overKeys countKeysValues (p.iterate steps (filter.getD {}))

/-- The six counts of `_count_all_keys_and_values_with_modified`: keys, former contents of keys, deleted keys, and the
same for values, /repo/src/parser.rs lines 343-348 and 371-378. -/
structure ModifiedCounts where
  keys : Nat := 0
  keysVersions : Nat := 0
  keysDeleted : Nat := 0
  values : Nat := 0
  valuesVersions : Nat := 0
  valuesDeleted : Nat := 0
deriving Repr, DecidableEq

/-- The loop over the values of a key, /repo/src/parser.rs lines 362-369. -/
def ModifiedCounts.value (c : ModifiedCounts) (v : Value) : ModifiedCounts :=
  { (if v.val.cellState.isDeleted then { c with valuesDeleted := c.valuesDeleted + 1 } else { c with values := c.values + 1 }) with
    valuesVersions := c.valuesVersions + v.versions.length }

/-- The loop over the keys, /repo/src/parser.rs lines 354-370. -/
def ModifiedCounts.key (c : ModifiedCounts) (n : Node) : ModifiedCounts :=
  n.key.values.foldl ModifiedCounts.value
    { (if n.key.cellState.isDeleted then { c with keysDeleted := c.keysDeleted + 1 } else { c with keys := c.keys + 1 }) with
      keysVersions := c.keysVersions + n.versions.length }

/-- `_count_all_keys_and_values_with_modified`, /repo/src/parser.rs lines 339-379; at most `steps` rounds. -/
def HiveParser.countModified (p : HiveParser) (steps : Nat) (filter : Option Filter) : Option (Res ModifiedCounts) :=
  overKeys (·.foldl ModifiedCounts.key {}) (p.iterate steps (filter.getD {}))

end Notatin
