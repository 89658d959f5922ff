import Verif.Spec.Encode
/- Byte ranges of a buffer. -/
namespace Notatin.Spec
open Notatin

/-- The `k` bytes at offset `o`. -/
def slice (bs : Bytes) (o k : Nat) : Bytes := (bs.drop o).take k

/-- The little-endian dword at offset `o`. -/
def u32At (bs : Bytes) (o : Nat) : Nat := leNat (slice bs o 4)

end Notatin.Spec
