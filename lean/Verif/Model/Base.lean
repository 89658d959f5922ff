/-
Bytes, nom-style parsers and results.  Shared by all model files.

Nothing here is notatin code: these are the primitives notatin uses, i.e. slices
(`buffer.get(a..b)`), the `nom::number::complete` readers, `nom::bytes::complete::{tag,take}`
and `nom::multi::count`.
-/
namespace Notatin

/-- A byte buffer (`&[u8]` / `Vec<u8>`). -/
abbrev Bytes := List UInt8

/-- A Rust `String`/`&str` as its sequence of Unicode scalar values. -/
abbrev Str := List Char

/-- Outcome of a Rust function that may return `Err` or panic.  Error payloads are dropped. -/
inductive Res (α : Type u) where
  | ok (a : α)
  | err
  | panic
deriving Repr, DecidableEq

namespace Res
/-- `?` on a `Result`, also propagating a panic. -/
def bind {α : Type u} {β : Type v} (x : Res α) (f : α → Res β) : Res β :=
  match x with
  | ok a => f a
  | err => err
  | panic => panic

instance : Monad Res where
  pure := ok
  bind := Res.bind

@[simp] theorem bind_ok {α β : Type u} (a : α) (f : α → Res β) : (ok a >>= f) = f a := rfl
@[simp] theorem bind_err {α β : Type u} (f : α → Res β) : ((err : Res α) >>= f) = err := rfl
@[simp] theorem bind_panic {α β : Type u} (f : α → Res β) : ((panic : Res α) >>= f) = panic := rfl
@[simp] theorem pure_eq {α : Type u} (a : α) : (pure a : Res α) = ok a := rfl

/-- An `Option` used as `ok_or(..)?`. -/
def ofOption {α : Type u} : Option α → Res α
  | some a => ok a
  | none => err

@[simp] theorem ofOption_some {α : Type u} (a : α) : ofOption (some a) = ok a := rfl
@[simp] theorem ofOption_none {α : Type u} : ofOption (none : Option α) = err := rfl
end Res

/-- A nom parser on complete input: `IResult<&[u8], α>` with the error payload dropped. -/
abbrev Parser (α : Type) := Bytes → Option (α × Bytes)

/-- Value of a little-endian byte sequence. -/
def leNat : Bytes → Nat
  | [] => 0
  | b :: bs => b.toNat + 256 * leNat bs

/-- Value of a big-endian byte sequence. -/
def beNat (bs : Bytes) : Nat := leNat bs.reverse

/-- `nom::bytes::complete::take(n)`. -/
def take (n : Nat) : Parser Bytes := fun i =>
  if n ≤ i.length then some (i.take n, i.drop n) else none

/-- A `k`-byte little-endian unsigned reader. -/
def leUint (k : Nat) : Parser Nat := fun i =>
  if k ≤ i.length then some (leNat (i.take k), i.drop k) else none

/-- `nom::number::complete::le_u16`. -/
def leU16 : Parser Nat := leUint 2
/-- `nom::number::complete::le_u32`. -/
def leU32 : Parser Nat := leUint 4
/-- `nom::number::complete::le_u64`. -/
def leU64 : Parser Nat := leUint 8

/-- Two's complement reading of an unsigned 32-bit number as `i32`. -/
def toI32 (n : Nat) : Int := if n < 2147483648 then (n : Int) else (n : Int) - 4294967296

/-- `nom::number::complete::le_i32`. -/
def leI32 : Parser Int := fun i =>
  match leUint 4 i with
  | some (n, i) => some (toI32 n, i)
  | none => none

/-- `nom::bytes::complete::tag(s)`. -/
def tag (s : Bytes) : Parser Unit := fun i =>
  if i.take s.length = s then some ((), i.drop s.length) else none

/-- `nom::multi::count(p, n)`. -/
def count {α : Type} (p : Parser α) : Nat → Parser (List α)
  | 0, i => some ([], i)
  | n + 1, i =>
    match p i with
    | none => none
    | some (a, i) =>
      match count p n i with
      | none => none
      | some (as, i) => some (a :: as, i)

/-- `slice.get(off..)`. -/
def getFrom (buf : Bytes) (off : Nat) : Option Bytes :=
  if off ≤ buf.length then some (buf.drop off) else none

/-- `slice.get(a..b)`. -/
def getRange (buf : Bytes) (a b : Nat) : Option Bytes :=
  if a ≤ b ∧ b ≤ buf.length then some ((buf.drop a).take (b - a)) else none

/-- The bytes of an ASCII literal such as `"nk"`. -/
def asciiBytes (s : String) : Bytes := s.toList.map (fun c => c.toNat.toUInt8)

/-- `i32::unsigned_abs`. -/
def unsignedAbs (i : Int) : Nat := i.natAbs

/-- `u32::to_le_bytes`. -/
def u32ToLeBytes (n : Nat) : Bytes :=
  [UInt8.ofNat n, UInt8.ofNat (n / 256), UInt8.ofNat (n / 65536), UInt8.ofNat (n / 16777216)]

/-- `u16::to_le_bytes`. -/
def u16ToLeBytes (n : Nat) : Bytes := [UInt8.ofNat n, UInt8.ofNat (n / 256)]

/-- `u64::to_le_bytes`. -/
def u64ToLeBytes (n : Nat) : Bytes :=
  u32ToLeBytes n ++ u32ToLeBytes (n / 4294967296)

end Notatin
