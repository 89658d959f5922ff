import Verif.Spec.Encode
/-
How value data is laid out in a hive, written from the file format: resident in the offset field,
in one cell, or in big-data segments.
-/
namespace Notatin.Spec
open Notatin

/-- `bs` is stored in `buf` from offset `off` on. -/
def At (buf : Bytes) (off : Nat) (bs : Bytes) : Prop :=
  ∃ pre post, buf = pre ++ (bs ++ post) ∧ pre.length = off

/-- The data is cut into segments of 16344 bytes (the last one may be shorter), the segment cells
are at the listed offsets relative to the bin start. -/
inductive SegmentsAt (buf : Bytes) (hbin : Nat) : List Nat → Bytes → Prop
  | last (off : Nat) (size : Int) (data : Bytes) :
      isI32 size → data.length ≤ size.natAbs → 0 < data.length → data.length ≤ 16344 →
      At buf (hbin + off) (encI32 size ++ data) → SegmentsAt buf hbin [off] data
  | cons (off : Nat) (size : Int) (seg : Bytes) (offs : List Nat) (rest : Bytes) :
      isI32 size → seg.length ≤ size.natAbs → seg.length = 16344 →
      At buf (hbin + off) (encI32 size ++ seg) → SegmentsAt buf hbin offs rest →
      SegmentsAt buf hbin (off :: offs) (seg ++ rest)

/-- A value with the data-size field `sizeRaw` and the data-offset field `offset` stores `data`;
the last argument lists where in the file the data is (the resident data is in the value cell at
`valueCell`). -/
inductive Stored (buf : Bytes) (hbin valueCell : Nat) : Nat → Nat → Bytes → List Nat → Prop
  | resident (data pad : Bytes) : (data ++ pad).length = 4 →
      Stored buf hbin valueCell (2147483648 + data.length) (leNat (data ++ pad)) data
        [valueCell + 12]
  | plain (offset : Nat) (size : Int) (data : Bytes) : data.length < 2147483648 → isI32 size →
      At buf (hbin + offset) (encI32 size ++ data) →
      Stored buf hbin valueCell data.length offset data [hbin + offset + 4]
  | big (offset : Nat) (size : Int) (segList : Nat) (listSize : Nat) (offs : List Nat)
      (data : Bytes) :
      16344 < data.length → data.length < 2147483648 → isI32 size → offs.length < 65536 →
      segList < 4294967296 → listSize < 4294967296 → (∀ o ∈ offs, o < 4294967296) →
      At buf (hbin + offset) (encI32 size ++ [0x64, 0x62] ++ encLE 2 offs.length ++ encLE 4 segList) →
      At buf (hbin + segList) (encLE 4 listSize ++ offs.flatMap (encLE 4)) →
      SegmentsAt buf hbin offs data →
      Stored buf hbin valueCell data.length offset data (offs.map (hbin + · + 4))

end Notatin.Spec
