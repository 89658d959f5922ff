import Verif.Spec.Tree
import Verif.Model.KeyNode
/-
What an iteration shows of the keys.
-/
namespace Notatin
open Notatin

/-- What identifies a key in a listing: its offset and its path. -/
def Spec.obs (n : Node) : Nat × Str := (n.key.fileOffset, n.key.path)

mutual
/-- A recovered key followed by the keys recovered below it. -/
def Spec.recoveredTree : Node → List (Nat × Str)
  | .mk k _ ds => (k.fileOffset, k.path) :: Spec.recoveredAll ds
/-- The keys recovered below a key, the last recorded first, each followed by the keys below it. -/
def Spec.recoveredAll : List Node → List (Nat × Str)
  | [] => []
  | d :: ds => Spec.recoveredAll ds ++ Spec.recoveredTree d
end

mutual
/-- The nodes of `recoveredTree`. -/
def Spec.belowTree : Node → List Node
  | .mk k vs ds => .mk k vs ds :: Spec.belowAll ds
/-- The nodes of `recoveredAll`. -/
def Spec.belowAll : List Node → List Node
  | [] => []
  | d :: ds => Spec.belowAll ds ++ Spec.belowTree d
end

/-- The node `n` is `m` as the iteration yields it: with the iterator's own notes in it. -/
def Spec.Yielded (m n : Node) : Prop :=
  n.versions = m.versions ∧ ∃ so tr s,
    n.key = { m.key with subKeyOffsets := so, toReturn := tr, filterState := s }

/-- A listed key followed by the keys recovered below it. -/
def Spec.withRecovered (n : Node) : List (Nat × Str) :=
  Spec.obs n :: Spec.recoveredAll n.deletedKeys

/-- Those keys of a listing that are not marked as recovered. -/
def Spec.liveKeys (ns : List Node) : List (Nat × Str) :=
  (ns.filter fun n => decide (n.key.cellState = .Allocated)).map Spec.obs

end Notatin
