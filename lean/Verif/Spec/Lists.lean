import Verif.Spec.ValueData
/-
Layout of sub-key lists and of security cells, written from the file format.
-/
namespace Notatin.Spec
open Notatin

/-- The three leaf forms. -/
inductive LeafForm where
  | lf | lh | li
deriving DecidableEq

/-- Signature of a leaf form. -/
def LeafForm.sig : LeafForm → Bytes
  | .lf => [0x6C, 0x66]
  | .lh => [0x6C, 0x68]
  | .li => [0x6C, 0x69]

/-- One item: the offset of the key cell; `lf` and `lh` append 4 bytes (name hint, hash). -/
def LeafForm.item : LeafForm → Nat × Bytes → Bytes
  | .li, (off, _) => encLE 4 off
  | _, (off, extra) => encLE 4 off ++ extra

/-- A leaf list cell. -/
def leafCell (form : LeafForm) (size : Int) (items : List (Nat × Bytes)) : Bytes :=
  encI32 size ++ form.sig ++ encLE 2 items.length ++ items.flatMap form.item

/-- An index root cell. -/
def riCell (size : Int) (offs : List Nat) : Bytes :=
  encI32 size ++ [0x72, 0x69] ++ encLE 2 offs.length ++ offs.flatMap (encLE 4)

/-- Both lists have the same length and are related element by element. -/
def Pairwise2 {α β : Type} (R : α → β → Prop) : List α → List β → Prop
  | [], [] => True
  | a :: as, b :: bs => R a b ∧ Pairwise2 R as bs
  | _, _ => False

/-- The cell at `off` (relative) is a sub-key list of at most `depth` levels denoting the key
cells at the absolute offsets `keys`. -/
def ListAt (buf : Bytes) (hbin : Nat) : Nat → Nat → List Nat → Prop
  | 0, _, _ => False
  | depth + 1, off, keys =>
    (∃ form size items, isI32 size ∧ items.length < 65536 ∧
      (∀ p ∈ items, p.1 < 4294967296 ∧ p.2.length = 4) ∧
      At buf (hbin + off) (leafCell form size items) ∧
      keys = items.map (fun p => p.1 + hbin)) ∨
    (∃ size offs parts, isI32 size ∧ offs.length < 65536 ∧ (∀ o ∈ offs, o < 4294967296) ∧
      At buf (hbin + off) (riCell size offs) ∧
      Pairwise2 (ListAt buf hbin depth) offs parts ∧ keys = parts.flatten)

/-- A security cell. -/
def skCell (size : Int) (unknown flink blink refCount : Nat) (descriptor : Bytes) : Bytes :=
  encI32 size ++ [0x73, 0x6B] ++ encLE 2 unknown ++ encLE 4 flink ++ encLE 4 blink
    ++ encLE 4 refCount ++ encLE 4 descriptor.length ++ descriptor

/-- The cell at `off` is a security cell with forward link `next` and this descriptor. -/
def SecurityAt (buf : Bytes) (hbin off next : Nat) (descriptor : Bytes) : Prop :=
  ∃ size unknown blink refCount, isI32 size ∧ unknown < 65536 ∧ next < 4294967296 ∧
    blink < 4294967296 ∧ refCount < 4294967296 ∧ descriptor.length < 4294967296 ∧
    At buf (hbin + off) (skCell size unknown next blink refCount descriptor)

/-- Following the forward links from `off` until `start` comes up again visits cells with the
descriptors `ds`, in this order. -/
inductive Ring {δ : Type} (sd : Bytes → Option δ) (buf : Bytes) (hbin start : Nat) :
    Nat → List δ → Prop
  | last (off : Nat) (bytes : Bytes) (d : δ) : SecurityAt buf hbin off start bytes →
      sd bytes = some d → Ring sd buf hbin start off [d]
  | step (off next : Nat) (bytes : Bytes) (d : δ) (ds : List δ) :
      SecurityAt buf hbin off next bytes → sd bytes = some d → next ≠ start →
      Ring sd buf hbin start next ds → Ring sd buf hbin start off (d :: ds)

end Notatin.Spec
