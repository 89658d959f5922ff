import Verif.Model.Cell
/-
Model of `/repo/src/cell_key_security.rs`.
-/
namespace Notatin

/-- `CellKeySecurity` with its detail, /repo/src/cell_key_security.rs lines 28-53. -/
structure KeySecurity where
  size : Nat
  unknown1 : Nat
  flink : Nat
  blink : Nat
  refCount : Nat
  sdSize : Nat
  descriptor : Bytes
deriving Repr, DecidableEq

/-- `CellKeySecurity::from_bytes`, /repo/src/cell_key_security.rs lines 57-82. -/
def KeySecurity.fromBytes (input : Bytes) : Option (KeySecurity × Bytes) := do
  let (size, input) ← leI32 input
  let (_, input) ← tag [0x73, 0x6B] input
  let (unknown1, input) ← leU16 input
  let (flink, input) ← leU32 input
  let (blink, input) ← leU32 input
  let (refCount, input) ← leU32 input
  let (sdSize, input) ← leU32 input
  let (descriptor, input) ← take sdSize input
  some ({ size := unsignedAbs size, unknown1, flink, blink, refCount, sdSize, descriptor }, input)

/-- The loop of `read_cell_key_security`, /repo/src/cell_key_security.rs lines 92-105.  The loop
has no bound: `steps` limits the number of rounds and `none` means that it was still running.
`sd` is `SecurityDescriptor::from_stream` (external crate): `none` when it fails. -/
def securityLoop {δ : Type} (sd : Bytes → Option δ) (buffer : Bytes) (start hbin : Nat) :
    Nat → Nat → List δ → Option (Res (List δ))
  | 0, _, _ => none
  | steps + 1, offset, acc =>
    match getFrom buffer (offset + hbin) with
    | none => some .err
    | some slice =>
      match KeySecurity.fromBytes slice with
      | none => some .err
      | some (c, _) =>
        match sd c.descriptor with
        | none => some .err
        | some d =>
          if c.flink = start then some (.ok (acc ++ [d]))
          else securityLoop sd buffer start hbin steps c.flink (acc ++ [d])

/-- `read_cell_key_security`, /repo/src/cell_key_security.rs lines 85-107, run for at most `steps`
rounds. -/
def readCellKeySecurity {δ : Type} (sd : Bytes → Option δ) (buffer : Bytes) (start hbin : Nat)
    (steps : Nat) : Option (Res (List δ)) :=
  securityLoop sd buffer start hbin steps start []

end Notatin
