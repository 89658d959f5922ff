import Verif.Spec.Tree
/-
Which cells can be read at all, in terms of the bytes of the file.
-/
namespace Notatin.Spec
open Notatin

/-- The bytes start with a value cell: plausible size, signature, complete name. -/
def ValueReadable (bs : Bytes) : Prop :=
  24 ≤ (toI32 (u32At bs 0)).natAbs ∧ (toI32 (u32At bs 0)).natAbs ≤ bs.length ∧
  slice bs 4 2 = vkSig ∧ 24 + leNat (slice bs 6 2) ≤ bs.length

/-- The bytes start with a key cell: plausible size, signature, complete name. -/
def KeyReadable (bs : Bytes) : Prop :=
  72 ≤ (toI32 (u32At bs 0)).natAbs ∧ (toI32 (u32At bs 0)).natAbs ≤ bs.length ∧
  slice bs 4 2 = nkSig ∧ 80 + leNat (slice bs 76 2) ≤ bs.length

instance (bs : Bytes) : Decidable (ValueReadable bs) := by unfold ValueReadable; infer_instance
instance (bs : Bytes) : Decidable (KeyReadable bs) := by unfold KeyReadable; infer_instance

end Notatin.Spec
