import Verif.Spec.KeyReading
import Verif.Spec.Lists
/-
The keys that can be reached in a file, written from the file format, whatever else the file holds.
-/
namespace Notatin.Spec
open Notatin

/-- The key cell at `o` leads to the key cell at `y`: it says that it has sub-keys, but not more than 1048576 of them;
its list of sub-keys is in order, of at most `levels` levels, and names `y`; and what is at `y` is a key. -/
def LeadsTo (buf : Bytes) (levels o y : Nat) : Prop :=
  0 < u32At buf (o + 24) ∧ u32At buf (o + 24) ≤ 1048576 ∧
  (∃ keys, ListAt buf 4096 levels (u32At buf (o + 32)) keys ∧ (∀ k ∈ keys, k < 4294967296) ∧ y ∈ keys) ∧
  KeyReadable (buf.drop y)

/-- The key cells that can be reached from the one behind the first bin header. -/
inductive Reachable (buf : Bytes) (levels : Nat) : Nat → Prop where
  | root : Reachable buf levels 4128
  | step {o y : Nat} : Reachable buf levels o → LeadsTo buf levels o y → Reachable buf levels y

/-- The list of sub-keys at `off` (relative) names `y` in a leaf that is in order, and the lists on the way to this leaf
are in order; what the other leaves are does not matter. -/
def ListNames (buf : Bytes) : Nat → Nat → Nat → Prop
  | 0, _, _ => False
  | levels + 1, off, y =>
    (∃ form size items, isI32 size ∧ items.length < 65536 ∧ (∀ p ∈ items, p.1 < 4294967296 ∧ p.2.length = 4) ∧
      At buf (4096 + off) (leafCell form size items) ∧ ∃ p ∈ items, y = p.1 + 4096) ∨
    (∃ size offs, isI32 size ∧ offs.length < 65536 ∧ (∀ o ∈ offs, o < 4294967296) ∧
      At buf (4096 + off) (riCell size offs) ∧ ∃ o ∈ offs, ListNames buf levels o y)

/-- The same as `Reachable`, where of the lists of sub-keys only the part on the way has to be in order. -/
inductive WidelyReachable (buf : Bytes) (levels : Nat) : Nat → Prop where
  | root : WidelyReachable buf levels 4128
  | step {o y : Nat} : WidelyReachable buf levels o → 0 < u32At buf (o + 24) → u32At buf (o + 24) ≤ 1048576 →
      ListNames buf levels (u32At buf (o + 32)) y → y < 4294967296 → KeyReadable (buf.drop y) →
      WidelyReachable buf levels y

end Notatin.Spec
