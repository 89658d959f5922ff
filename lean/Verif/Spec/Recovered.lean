import Verif.Spec.Recover
import Verif.Spec.Overwritten
import Verif.Props.Values
/-
What the listing of a hive tells of the cells in its free and unused space.
-/
namespace Notatin.Spec
open Notatin

/-- The listed key `y` tells the key cell `c` with the name `name`: its name, as path the name alone, time,
flags, access bits, the offset of its parent, and its values, as far as they are still stored. -/
structure TellsKeyCell (buf : Bytes) (c : NkCell) (name : Str) (y : Node) : Prop where
  named : y.key.name = name
  path : y.key.path = '\\' :: name
  written : y.key.lastWritten = c.lastWritten
  flags : y.key.flagBits = c.flags
  access : y.key.accessBits = c.access
  parent : y.key.parentOffset = c.parent
  values : ∀ vs, ValuesAt buf 4096 c vs → y.key.values.map obsVal = vs

/-- The listed value has data, which are of its type. -/
def HasContent (x : Value) : Prop := x.val.valueBytes ≠ none ∧ x.val.dataType = DataType.ofRaw x.val.dataTypeRaw

/-- The listed key `y` comes from free or unused space of the file: it is marked accordingly, tells its offset,
has no former contents, and tells the key cell there.  Its values are listed as if the key were there (see
`deleted_values_marked_violated`). -/
structure FromFreeKey (buf : Bytes) (y : Node) : Prop where
  inBins : 4096 ≤ y.key.fileOffset
  readable : KeyReadable (buf.drop y.key.fileOffset)
  why : DeletedAs buf y.key.fileOffset y.key.cellState
  versions : y.versions = []
  tells : ∀ c name, KeyAt buf y.key.fileOffset c name → TellsKeyCell buf c name y
  contents : ∀ v ∈ y.key.values, HasContent v ∧ v.versions = [] ∧ v.val.cellState = .Allocated

/-- The listed value `x` comes from free or unused space of the file: it is marked accordingly, tells its
offset, has no former contents, and tells the value stored there. -/
structure FromFreeValue (buf : Bytes) (x : Value) : Prop where
  inBins : 4096 ≤ x.val.fileOffset
  readable : ValueReadable (buf.drop x.val.fileOffset)
  why : DeletedAs buf x.val.fileOffset x.val.cellState
  versions : x.versions = []
  tells : ∀ v, ValueAt buf 4096 (x.val.fileOffset - 4096) v → obsVal x = v
  content : HasContent x

/-- Every free cell in a bin that starts before `limit` is among the listed keys, if a key can be read
there, and among the listed values, if a value can be read there. -/
def ListsFree (buf : Bytes) (bins : List (Nat × List Nat)) (limit : Nat) (keys : List Node) (values : List Value) :
    Prop :=
  ∀ bin ∈ bins, bin.1 < limit → ∀ c ∈ bin.2, 0 < sizeAt buf c →
    (KeyReadable (buf.drop c) → ∃ y ∈ keys, y.key.fileOffset = c) ∧
    (ValueReadable (buf.drop c) → ∃ x ∈ values, x.val.fileOffset = c)

/-- A key of the tree as it is listed: not recovered, without former contents, and with its stored values
first. -/
def ListsStored (vals : Nat → List Val) (y : Node) (more : List Value) : Prop :=
  y.key.cellState = .Allocated ∧ y.versions = [] ∧ ∃ own, y.key.values = own ++ more ∧
    own.map obsVal = vals y.key.fileOffset ∧ ∀ v ∈ own, v.val.seq = none ∧ PlainValue v

/-- The listing of an opened hive: the root, then the keys found in free and unused space, then the other keys
of the hive; the values found in free and unused space are behind the values of the root, in the order of
their names; nothing is listed twice; the free cells of the bins starting before `limit` are all listed. -/
structure ListsDeleted (buf : Bytes) (bins : List (Nat × List Nat)) (limit : Nat) (t : Tree)
    (vals : Nat → List Val) (root : Node) (keys rest : List Node) (values : List Value) : Prop where
  live : (root :: rest).map obs = t.pre []
  shown : ∀ y ∈ root :: rest, ∃ u ∈ t.nodes, KeyShown u y
  root : ListsStored vals root values
  others : ∀ y ∈ rest, ListsStored vals y []
  fromKeys : ∀ y ∈ keys, FromFreeKey buf y
  fromValues : ∀ x ∈ values, FromFreeValue buf x
  sorted : values.Pairwise fun x x' => x.val.name.map Char.toNat ≤ x'.val.name.map Char.toNat
  once : (values.map (fun x => x.val.fileOffset) ++ keys.map fun y => y.key.fileOffset).Nodup
  complete : ListsFree buf bins limit keys values

/-- A clean hive as it is given to the builder: the logs can be read, the header is intact, of a supported type,
its sequence numbers agree. -/
structure CleanHive (b : Builder) (bb : BaseBlock) : Prop where
  logsRead : ∃ x, TransactionLog.parse b.logs = .ok x
  header : ∃ rest, BaseBlock.fromBytes b.primary = .ok (bb, rest)
  supported : bb.base.fileType ≠ .unknown
  clean : bb.base.primarySeq = bb.base.secondarySeq
  checksum : calculateChecksum (b.primary.take 512) = .ok bb.base.checksum

/-- The root, and no other key, is marked as root. -/
def RootMarked (t : Tree) : Prop :=
  t.cell.flags.testBit 2 = true ∧ EveryAll (fun u => u.cell.flags.testBit 2 = false) t.kids

end Notatin.Spec
