import Verif.Model.Base
/-
Model of `/repo/src/marvin32.rs`.
Simplification: `dlen` is always `data.len()` at the two call sites
(/repo/src/transaction_log.rs lines 154 and 163), so it is not a separate parameter.
-/
namespace Notatin

/-- `BLOCK!`, /repo/src/marvin32.rs lines 32-43. -/
def marvinBlock (a b : BitVec 32) : BitVec 32 × BitVec 32 :=
  let b := b ^^^ a
  let a := a.rotateLeft 20
  let a := a + b
  let b := b.rotateLeft 9
  let b := b ^^^ a
  let a := a.rotateLeft 27
  let a := a + b
  let b := b.rotateLeft 19
  (a, b)

/-- The word loop, /repo/src/marvin32.rs lines 52-57. -/
def marvinLoop (s0 s1 : BitVec 32) : Bytes → BitVec 32 × BitVec 32 × Bytes
  | a :: b :: c :: d :: rest =>
    let s := marvinBlock (s0 + BitVec.ofNat 32 (leNat [a, b, c, d])) s1
    marvinLoop s.1 s.2 rest
  | rest => (s0, s1, rest)

/-- The final partial word, /repo/src/marvin32.rs lines 59-69. -/
def marvinTail : Bytes → BitVec 32
  | [] => 0x80#32
  | [a] => 0x8000#32 ||| BitVec.ofNat 32 a.toNat
  | [a, b] => 0x800000#32 ||| BitVec.ofNat 32 (leNat [a, b])
  | a :: b :: c :: _ =>
    0x80000000#32 ||| (BitVec.ofNat 32 c.toNat <<< 16) ||| BitVec.ofNat 32 (leNat [a, b])

/-- `marvin32`, /repo/src/marvin32.rs lines 46-75. -/
def marvin32 (seed : BitVec 64) (data : Bytes) : BitVec 64 :=
  let s := marvinLoop (seed.setWidth 32) ((seed >>> 32).setWidth 32) data
  let s0 := s.1 + marvinTail s.2.2
  let t := marvinBlock s0 s.2.1
  let t := marvinBlock t.1 t.2
  (t.1.setWidth 64) ||| (t.2.setWidth 64 <<< 32)

end Notatin
