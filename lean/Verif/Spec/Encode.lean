import Verif.Model.Base
/-
Independent encoders used to state round-trip properties.  They are written from the
registry file format, not from notatin's parsers.
-/
namespace Notatin.Spec
open Notatin

/-- Little-endian encoding of `n` in `k` bytes (truncating). -/
def encLE : Nat → Nat → Bytes
  | 0, _ => []
  | k + 1, n => UInt8.ofNat (n % 256) :: encLE k (n / 256)

/-- Little-endian two's complement encoding of an `i32`. -/
def encI32 (i : Int) : Bytes := encLE 4 (i % 4294967296).toNat

/-- `i` fits in an `i32`. -/
def isI32 (i : Int) : Prop := -2147483648 ≤ i ∧ i < 2147483648

instance (i : Int) : Decidable (isI32 i) := inferInstanceAs (Decidable (_ ∧ _))

end Notatin.Spec
