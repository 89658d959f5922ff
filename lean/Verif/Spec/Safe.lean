import Verif.Spec.Slice
/-
What the bytes of a log and of a hive must not contain for reading to be safe (C83).
-/
namespace Notatin.Spec

/-- Wherever `HvLE` stands in the log (with room for the fixed fields of an entry), the size that follows is at
least that of the fixed fields, and the sequence number is not the last one of 32 bits. -/
def SaneLog (f : Bytes) : Prop :=
  ∀ i, i + 40 ≤ f.length → slice f i 4 = [0x48, 0x76, 0x4C, 0x45] →
    40 ≤ u32At f (i + 4) ∧ u32At f (i + 12) < 4294967295

/-- The sub-key list at an offset (counted from the hive bins at 4096): index roots lead to other lists at most
`levels` deep, and the offsets in lists of the kinds `lf` and `li` stay in 32 bits when counted from the start of
the file.  A list cut off by the end of the file says nothing. -/
def ListEnds (buf : Bytes) : Nat → Nat → Prop
  | 0, _ => False
  | levels + 1, off =>
    (slice buf (off + 4100) 2 = [0x72, 0x69] →
      off + 4104 + 4 * leNat (slice buf (off + 4102) 2) ≤ buf.length →
      ∀ i, i < leNat (slice buf (off + 4102) 2) → ListEnds buf levels (u32At buf (off + 4104 + 4 * i))) ∧
    (slice buf (off + 4100) 2 = [0x6C, 0x66] →
      off + 4104 + 8 * leNat (slice buf (off + 4102) 2) ≤ buf.length →
      ∀ i, i < leNat (slice buf (off + 4102) 2) → u32At buf (off + 4104 + 8 * i) + 4096 < 4294967296) ∧
    (slice buf (off + 4100) 2 = [0x6C, 0x69] →
      off + 4104 + 4 * leNat (slice buf (off + 4102) 2) ≤ buf.length →
      ∀ i, i < leNat (slice buf (off + 4102) 2) → u32At buf (off + 4104 + 4 * i) + 4096 < 4294967296)

/-- The sub-key lists of all that looks like a key with sub-keys (at most the 1048576 that are read). -/
def SaneLists (buf : Bytes) (levels : Nat) : Prop :=
  ∀ o, slice buf (o + 4) 2 = [0x6E, 0x6B] → 0 < u32At buf (o + 24) → u32At buf (o + 24) ≤ 1048576 →
    ListEnds buf levels (u32At buf (o + 32))

/-- The sub-key lists of all that looks like a key with sub-keys, however many. -/
def SaneKeyLists (buf : Bytes) (levels : Nat) : Prop :=
  ∀ o, slice buf (o + 4) 2 = [0x6E, 0x6B] → 0 < u32At buf (o + 24) → ListEnds buf levels (u32At buf (o + 32))

end Notatin.Spec
