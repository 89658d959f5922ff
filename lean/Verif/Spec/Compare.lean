import Verif.Model.Compare
import Verif.Spec.Analyzer
import Verif.Spec.Lists
/-
What the comparison of two listings of keys reports, said in terms of the two listings: an item is a
key (named by its path) or a value (named by the path of its key and its own name).
-/
namespace Notatin.Spec

/-- No two keys have the same path, no two values of a key the same name. -/
structure Unique (ns : List Node) : Prop where
  paths : ns.Pairwise fun a b => a.key.path ≠ b.key.path
  names : ∀ n ∈ ns, n.key.values.Pairwise fun a b => a.val.name ≠ b.val.name

/-- There is a key with this path. -/
def HasKey (ns : List Node) (path : Str) : Prop := ∃ b ∈ ns, b.key.path = path

/-- There is a key with this path that holds a value of this name. -/
def HasValue (ns : List Node) (path name : Str) : Prop :=
  ∃ b ∈ ns, b.key.path = path ∧ ∃ v ∈ b.key.values, v.val.name = name

/-- There is a key with this path, and its hash is different. -/
def KeyDiffers (ns : List Node) (path : Str) (hash : Option Bytes) : Prop :=
  ∃ b ∈ ns, b.key.path = path ∧ b.key.hash ≠ hash

/-- There is a value with this path and name, and its hash is different. -/
def ValueDiffers (ns : List Node) (path name : Str) (hash : Option Bytes) : Prop :=
  ∃ b ∈ ns, b.key.path = path ∧ ∃ v ∈ b.key.values, v.val.name = name ∧ v.val.hash ≠ hash

instance (ns : List Node) (p : Str) : Decidable (HasKey ns p) := by unfold HasKey; infer_instance
instance (ns : List Node) (p m : Str) : Decidable (HasValue ns p m) := by
  unfold HasValue; infer_instance
instance (ns : List Node) (p : Str) (h : Option Bytes) : Decidable (KeyDiffers ns p h) := by
  unfold KeyDiffers; infer_instance
instance (ns : List Node) (p m : Str) (h : Option Bytes) : Decidable (ValueDiffers ns p m h) := by
  unfold ValueDiffers; infer_instance

/-- All values of a listing with the paths of their keys, in order. -/
def allValues (ns : List Node) : List (Str × Value) :=
  ns.flatMap fun n => n.key.values.map fun v => (n.key.path, v)

/-- The same key: path, place in the file, hash and values, and the time and the bits shown with it. -/
def SameEntry (a b : Node) : Prop :=
  a.key.path = b.key.path ∧ a.key.fileOffset = b.key.fileOffset ∧ a.key.hash = b.key.hash ∧
    a.key.values = b.key.values ∧ a.key.lastWritten = b.key.lastWritten ∧
    a.key.flagBits = b.key.flagBits ∧ a.key.accessBits = b.key.accessBits

/-- What the comparison of the listings `base` and `comp` should report. -/
structure Reported (base comp : List Node) (d : Differences) : Prop where
  /-- Added: the keys of the comparison whose path the base does not have, in order. -/
  keysAdded : d.keysAdded = comp.filter fun n => !decide (HasKey base n.key.path)
  /-- Modified: the keys of both with different hashes, in order, each with the key of the base. -/
  keysModified : Pairwise2
    (fun n x => x.2 = n ∧ ∃ b ∈ base, b.key.path = n.key.path ∧ SameEntry x.1 b)
    (comp.filter fun n => decide (KeyDiffers base n.key.path n.key.hash)) d.keysModified
  /-- Deleted: the keys of the base whose path the comparison does not have, in some order. -/
  keysDeleted : ∃ del, del.Perm (base.filter fun n => !decide (HasKey comp n.key.path)) ∧
    Pairwise2 SameEntry d.keysDeleted del
  valuesAdded : d.valuesAdded =
    (allValues comp).filter fun x => !decide (HasValue base x.1 x.2.val.name)
  valuesModified : Pairwise2
    (fun x y => y.1 = x.1 ∧ y.2.2 = x.2 ∧ y.2.1.val.name = x.2.val.name ∧
      (x.1, y.2.1) ∈ allValues base)
    ((allValues comp).filter fun x => decide (ValueDiffers base x.1 x.2.val.name x.2.val.hash))
    d.valuesModified
  valuesDeleted : d.valuesDeleted.Perm
    ((allValues base).filter fun x => !decide (HasValue comp x.1 x.2.val.name))

/-- The two listings hold the same keys and the same values, with the same hashes, in any order. -/
structure SameItems (base comp : List Node) : Prop where
  keys : ∀ p h, (∃ b ∈ base, b.key.path = p ∧ b.key.hash = h) ↔
    ∃ b ∈ comp, b.key.path = p ∧ b.key.hash = h
  values : ∀ p m h, (∃ b ∈ base, b.key.path = p ∧ ∃ v ∈ b.key.values, v.val.name = m ∧ v.val.hash = h) ↔
    ∃ b ∈ comp, b.key.path = p ∧ ∃ v ∈ b.key.values, v.val.name = m ∧ v.val.hash = h

/-- The number of items a comparison reports, counted from the two listings: those only in one of
them and those in both with different hashes. -/
def differenceCount (base comp : List Node) : Nat :=
  (base.countP fun n => !decide (HasKey comp n.key.path)) +
  (comp.countP fun n => !decide (HasKey base n.key.path)) +
  (comp.countP fun n => decide (KeyDiffers base n.key.path n.key.hash)) +
  ((allValues base).countP fun x => !decide (HasValue comp x.1 x.2.val.name)) +
  ((allValues comp).countP fun x => !decide (HasValue base x.1 x.2.val.name)) +
  ((allValues comp).countP fun x => decide (ValueDiffers base x.1 x.2.val.name x.2.val.hash))

end Notatin.Spec
