import Verif.Spec.Slice
/-
Layout of a new-format transaction log entry, written from the format specification.
-/
namespace Notatin.Spec
open Notatin

/-- The content of a log entry. -/
structure RawEntry where
  flags : Nat
  seq : Nat
  bins : Nat
  hash1 : Nat
  hash2 : Nat
  pages : List (Nat × Bytes)
  pad : Bytes
deriving DecidableEq, Repr

/-- References to the dirty pages. -/
def encRefs (pages : List (Nat × Bytes)) : Bytes :=
  pages.flatMap (fun p => encLE 4 p.1 ++ encLE 4 p.2.length)

/-- Content of the dirty pages. -/
def encPages (pages : List (Nat × Bytes)) : Bytes := pages.flatMap (fun p => p.2)

/-- Total size of an entry. -/
def RawEntry.size (e : RawEntry) : Nat :=
  40 + 8 * e.pages.length + (encPages e.pages).length + e.pad.length

/-- The entry on disk. -/
def RawEntry.encode (e : RawEntry) : Bytes :=
  [0x48, 0x76, 0x4C, 0x45] ++ encLE 4 e.size ++ encLE 4 e.flags ++ encLE 4 e.seq ++ encLE 4 e.bins ++
    encLE 4 e.pages.length ++ encLE 8 e.hash1 ++ encLE 8 e.hash2 ++ encRefs e.pages ++
    encPages e.pages ++ e.pad

/-- All fields fit. -/
def RawEntry.Fits (e : RawEntry) : Prop :=
  e.flags < 2 ^ 32 ∧ e.seq < 2 ^ 32 ∧ e.bins < 2 ^ 32 ∧ e.hash1 < 2 ^ 64 ∧ e.hash2 < 2 ^ 64 ∧
  e.size < 2 ^ 32 ∧ ∀ p ∈ e.pages, p.1 < 2 ^ 32

end Notatin.Spec
