import Verif.Spec.History
import Verif.Spec.CompareTells
/-
What a history of a hive overwrites, described by what is stored in its states.
-/
namespace Notatin.Spec
open Notatin

/-- A state of the file with the flags of the values. -/
structure FullState where
  seq : Nat
  buf : Bytes
  tree : Tree
  vals : Nat → List FlaggedVal

/-- The state without the flags of the values. -/
def FullState.plain (s : FullState) : FileState := ⟨s.seq, s.buf, s.tree, fun off => (s.vals off).map FlaggedVal.val⟩

/-- The keys and values of a state; a key is named by its path, a value by the path of its key and its name. -/
def FullState.items (s : FullState) : List ((Str × Option Str) × (Tree ⊕ FlaggedVal)) :=
  (s.tree.keys []).flatMap fun x =>
    ((x.1, none), .inl x.2) :: (s.vals x.2.off).map fun y => ((x.1, some y.val.name), .inr y)

/-- The key or value with this name. -/
def FullState.item (s : FullState) (k : Str × Option Str) : Option (Tree ⊕ FlaggedVal) :=
  (s.items.find? (·.1 == k)).map Prod.snd

/-- Of a key its flags, time and access bits, of a value its type, flags and data. -/
def FullState.facts (s : FullState) (k : Str × Option Str) : Option ((Nat × Nat × Nat) ⊕ (Nat × Nat × Bytes)) :=
  (s.item k).map (Sum.map Tree.facts FlaggedVal.facts)

/-- An entry of the log: the states before it, the newest first, and the state after it. -/
abbrev Event := List FullState × FullState

/-- The entries of a history, which is given with the newest state first; the newest entry first. -/
def events : List FullState → List Event
  | b :: a :: older => (a :: older, b) :: events (a :: older)
  | _ => []

/-- The item as the entry found it. -/
def Event.was (e : Event) (k : Str × Option Str) : Option (Tree ⊕ FlaggedVal) := e.1.head?.bind (·.item k)

/-- The item is there before and after the entry, but not the same. -/
def Event.changes (k : Str × Option Str) (e : Event) : Bool :=
  match e.1.head?.bind (·.facts k), e.2.facts k with
  | some c, some d => decide (c ≠ d)
  | _, _ => false

/-- The item is there before the entry and not after it. -/
def Event.removes (k : Str × Option Str) (e : Event) : Prop := e.was k ≠ none ∧ e.2.item k = none

/-- The number of the entry since which the item has been what it is in the newest state (0: since before the
first entry). -/
def since (k : Str × Option Str) : List FullState → Nat
  | [] => 0
  | [s] => s.seq
  | s :: t :: rest => if s.facts k = t.facts k then since k (t :: rest) else s.seq

/-- `n` tells the key as the entry found it: where it was, its path, name, time, flags and access bits; that it
was changed in a transaction log; the numbers of the entries that made and that changed it. -/
def TellsOldKey (path : Str) (e : Event) (n : Node) : Prop :=
  (∃ u, e.was (path, none) = some (.inl u) ∧ n.key.fileOffset = u.off ∧ n.key.name = u.name ∧
    n.key.lastWritten = u.cell.lastWritten ∧ n.key.flagBits = u.cell.flags ∧ n.key.accessBits = u.cell.access) ∧
  n.key.path = path ∧ n.key.cellState = .ModifiedTransactionLog ∧
  n.key.seq = some (since (path, none) e.1) ∧ n.key.updatedBySeq = some e.2.seq ∧ n.versions = []

/-- `v` tells the value as the entry found it: its name, type, data and flags; what has become of it; the numbers
of the entries that made it and that changed or removed it. -/
def TellsOldValue (path name : Str) (cs : CellState) (e : Event) (v : Value) : Prop :=
  (∃ y, e.was (path, some name) = some (.inr y) ∧ v.val.name = y.val.name ∧ v.val.dataTypeRaw = y.val.type ∧
    v.val.valueBytes = some y.val.data ∧ v.val.flagsRaw = y.flags ∧ v.val.dataType = DataType.ofRaw y.val.type) ∧
  v.val.cellState = cs ∧ v.val.seq = some (since (path, some name) e.1) ∧ v.val.updatedBySeq = some e.2.seq

/-- The item as the entry found it. -/
def Event.before (k : Str × Option Str) (e : Event) : Option ((Nat × Nat × Nat) ⊕ (Nat × Nat × Bytes)) :=
  e.1.head?.bind (·.facts k)

/-- What the entry removed is not there again, with the same contents, after a later one. -/
def StaysAway (evs : List Event) (k : Str × Option Str) (e : Event) : Prop :=
  ∀ e' ∈ evs, e.2.seq < e'.2.seq → e'.2.facts k ≠ e.before k

/-- Another entry has removed the item with the same contents. -/
def RemovedTwice (evs : List Event) (k : Str × Option Str) (e : Event) : Prop :=
  ∃ e' ∈ evs, e'.2.seq ≠ e.2.seq ∧ e'.removes k ∧ e'.before k = e.before k

/-- The entry removes the item, and this is not taken back by putting the same there again (where the same was
removed more than once, some of this may still be told). -/
def Removal (evs : List Event) (k : Str × Option Str) (e : Event) : Prop :=
  e ∈ evs ∧ e.removes k ∧ (StaysAway evs k e ∨ RemovedTwice evs k e)

/-- Value records in the order of their names, for equal names in the order of the entries that removed them. -/
def RemovedBefore (v v' : Value) : Prop :=
  v.val.name.map Char.toNat < v'.val.name.map Char.toNat ∨
    v.val.name = v'.val.name ∧ ∃ x y, v.val.updatedBySeq = some x ∧ v'.val.updatedBySeq = some y ∧ x < y

/-- The values of the key with this path. -/
def FullState.valuesOf (s : FullState) (path : Str) : List FlaggedVal :=
  (((s.tree.keys []).find? (·.1 == path)).map fun x => s.vals x.2.off).getD []

/-- The listed value shows the stored one. -/
def NowShows (v : Value) (y : FlaggedVal) : Prop :=
  v.val.name = y.val.name ∧ v.val.dataTypeRaw = y.val.type ∧ v.val.valueBytes = some y.val.data ∧
    v.val.flagsRaw = y.flags ∧ v.val.cellState = .Allocated ∧ v.val.dataType = DataType.ofRaw y.val.type

/-- The listed key `n` tells everything the entries have done to a key with its path and its values:
- all former contents of the key, the newest first;
- the values the key has now, each with its former contents, the newest first;
- the removed values in the order of their names, each as the entry that removed it found it, but not those that
  were put there again with the same contents. -/
structure TellsPast (last : FullState) (evs : List Event) (n : Node) : Prop where
  versions : Pairwise2 (TellsOldKey n.key.path) (evs.filter (Event.changes (n.key.path, none))) n.versions
  values : ∃ live gone, n.key.values = live ++ gone ∧
    Pairwise2 (fun v y => NowShows v y ∧
        Pairwise2 (TellsOldValue n.key.path v.val.name .ModifiedTransactionLog)
          (evs.filter (Event.changes (n.key.path, some v.val.name))) v.versions)
      live (last.valuesOf n.key.path) ∧
    (∀ v ∈ gone, v.versions = [] ∧ ∃ e, Removal evs (n.key.path, some v.val.name) e ∧
      TellsOldValue n.key.path v.val.name .DeletedTransactionLog e v) ∧
    (∀ e ∈ evs, ∀ name, e.removes (n.key.path, some name) → StaysAway evs (n.key.path, some name) e → ∃ v ∈ gone,
      TellsOldValue n.key.path name .DeletedTransactionLog e v) ∧
    gone.Pairwise RemovedBefore

/-- The listed key `n` shows the stored key `u`: where it is, its name, time, flags, access bits and number of
sub-keys; it is not marked as recovered. -/
structure KeyShown (u : Tree) (n : Node) : Prop where
  off : n.key.fileOffset = u.off
  name : n.key.name = u.name
  written : n.key.lastWritten = u.cell.lastWritten
  flags : n.key.flagBits = u.cell.flags
  access : n.key.accessBits = u.cell.access
  subKeys : n.key.subKeyOffsets.length = u.kids.length
  state : n.key.cellState = .Allocated
  seq : n.key.seq = none

/-- The listed key `n` tells nothing but its present values. -/
structure TellsPresent (last : FullState) (n : Node) : Prop where
  versions : n.versions = []
  values : Pairwise2 (fun v y => NowShows v y ∧ v.versions = []) n.key.values (last.valuesOf n.key.path)

/-- The history of a dirty hive that is opened with recovery, with the flags of the values; the hash tells the
contents of keys and values apart. -/
structure FullHistory (w : World) (b : Builder) (a : FullState) (later : List FullState) : Prop where
  history : History w b a.plain (later.map FullState.plain)
  first : a.seq = 0
  flags : ∀ s ∈ a :: later, s.tree.Every fun u => FlaggedValuesAt s.buf 4096 u.cell (s.vals u.off)
  hash : ∀ s ∈ a :: later, ∀ t ∈ a :: later, HashTells w.hashFn s.tree s.vals t.tree t.vals

end Notatin.Spec
