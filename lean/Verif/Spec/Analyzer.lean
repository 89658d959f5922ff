import Verif.Model.Analyzer
import Verif.Props.StateMaps
/-
What comparing the keys and values of two states of a file means.
-/
namespace Notatin.Spec
open Notatin

/-- The entry `x` was there before and is not there any more. -/
def Gone (prior : RegItemMap) (seen : List Seen) (x : ItemKey × Item) : Prop :=
  x ∈ prior ∧ ∀ s ∈ seen, s.key ≠ x.1

/-- The item filed under `k` was `p` before and is there with a different content. -/
def Changed (prior : RegItemMap) (seen : List Seen) (k : ItemKey) (p : Item) : Prop :=
  (k, p) ∈ prior ∧ ∃ s ∈ seen, s.key = k ∧ s.hash ≠ some p.hash

/-- The file before the entry has, at the offset of the item, the key with that path and hash. -/
def KeyWas (env : Env) (path : Str) (it : Item) : Prop :=
  ∃ k r, KeyNode.fromBytes env.hashFn (env.fi.buffer.drop it.off) it.off (upTo path) (some it.seq)
      = .ok (k, r) ∧ k.path = path ∧ k.hash = some it.hash

/-- The file before the entry has, at the offset of the item, the value with that name and hash. -/
def ValueWas (env : Env) (name : Str) (it : Item) : Prop :=
  ∃ kv r, KeyValue.fromBytes (env.fi.buffer.drop it.off) it.off (some it.seq) = .ok (kv, r) ∧
    kv.name = name ∧ (kv.readValueBytes env.hashFn env.fi).hash = some it.hash

/-- Every entry of the map describes the file. -/
def ItemsAre (env : Env) (m : RegItemMap) : Prop :=
  ∀ x ∈ m, match x.1.2 with
    | none => KeyWas env x.1.1 x.2
    | some name => ValueWas env name x.2

/-- `n` is the key `path` as it was, marked with the sequence numbers of both states; its values
are reported separately. -/
def IsKeyVersion (env : Env) (newSeq : Nat) (cs : CellState) (path : Str) (it : Item) (n : Node) :
    Prop :=
  ∃ k r, KeyNode.fromBytes env.hashFn (env.fi.buffer.drop it.off) it.off (upTo path) (some it.seq)
      = .ok (k, r) ∧ k.path = path ∧ k.hash = some it.hash ∧
    n = .mk
      { k with
        values := []
        logs := n.key.logs
        updatedBySeq := some newSeq
        cellState := cs } [] []

/-- `v` is the value `name` as it was, marked with the sequence numbers of both states. -/
def IsValueVersion (env : Env) (newSeq : Nat) (cs : CellState) (name : Str) (it : Item) (v : Value) :
    Prop :=
  ∃ kv r, KeyValue.fromBytes (env.fi.buffer.drop it.off) it.off (some it.seq) = .ok (kv, r) ∧
    kv.name = name ∧ (kv.readValueBytes env.hashFn env.fi).hash = some it.hash ∧
    v = .mk
      { kv.readValueBytes env.hashFn env.fi with
        updatedBySeq := some newSeq
        cellState := cs } []

/-- The value record `v` filed under `path` describes what is there. -/
def CurrentValue (seen : List Seen) (path : Str) (v : Value) : Prop :=
  ∃ s ∈ seen, s.key = (path, some v.val.name) ∧ s.hash = v.val.hash

/-- The key record `n` describes what is there. -/
def CurrentKey (seen : List Seen) (n : Node) : Prop :=
  ∃ s ∈ seen, s.key = (n.key.path, none) ∧ s.hash = n.key.hash

/-- `new` is `old` without some of its elements: of the records that describe something that is
there again, each such thing takes one away, all others stay, and the order is kept. -/
structure Retracts {α : Type} (cur : α → Prop) (same : α → α → Prop) (old new : List α) : Prop where
  sub : new.Sublist old
  rest : ∀ p : α → Bool, (∀ x, p x = true → ¬ cur x) → new.filter p = old.filter p
  one : ∀ x, cur x → ∀ p : α → Bool, (∀ y, p y = true ↔ same x y) →
    (new.filter p).length = (old.filter p).length - 1

end Notatin.Spec
