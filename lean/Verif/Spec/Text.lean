import Verif.Spec.Encode
/-
Independent specifications for text: the UTF-16LE encoding (Unicode standard, D91), export
field reading (RFC 4180), hex reading.  None of these refers to notatin's decoders.
-/
namespace Notatin.Spec
open Notatin

/-! ### UTF-16 -/

/-- UTF-16 code units of a character. -/
def utf16Units (c : Char) : List Nat :=
  if c.toNat < 0x10000 then [c.toNat]
  else [0xD800 + (c.toNat - 0x10000) / 0x400, 0xDC00 + (c.toNat - 0x10000) % 0x400]

/-- Little-endian bytes of code units. -/
def unitBytes (us : List Nat) : Bytes := us.flatMap (encLE 2)

/-- UTF-16LE encoding of a text. -/
def utf16le (s : Str) : Bytes := unitBytes (s.flatMap utf16Units)

/-- A piece of an arbitrary code unit sequence: a character or an unpaired surrogate. -/
inductive Piece where
  | char (c : Char)
  | lone (u : Nat)
deriving DecidableEq, Repr

/-- Code units of a piece. -/
def Piece.units : Piece → List Nat
  | .char c => utf16Units c
  | .lone u => [u]

/-- What a piece must be shown as: U+FFFD for an unpaired surrogate. -/
def Piece.shown : Piece → Char
  | .char c => c
  | .lone _ => Char.ofNat 0xFFFD

/-- Number of unpaired surrogates. -/
def loneCount : List Piece → Nat
  | [] => 0
  | .char _ :: ps => loneCount ps
  | .lone _ :: ps => loneCount ps + 1

/-- A sequence of pieces is the reading of its units: NUL free, lone units are surrogates and a
lone high surrogate is not directly followed by a lone low one (that would be a pair). -/
def PiecesWF : List Piece → Prop
  | [] => True
  | .char c :: ps => c ≠ '\x00' ∧ PiecesWF ps
  | .lone u :: ps => 0xD800 ≤ u ∧ u ≤ 0xDFFF ∧
      (u ≤ 0xDBFF → ∀ v qs, ps = .lone v :: qs → v ≤ 0xDBFF) ∧ PiecesWF ps

/-! ### Hex -/

/-- Value of an upper-case hex digit. -/
def hexVal (c : Char) : Option Nat :=
  if '0' ≤ c ∧ c ≤ '9' then some (c.toNat - 48)
  else if 'A' ≤ c ∧ c ≤ 'F' then some (c.toNat - 55)
  else none

/-- Reader of `HH HH ... HH`: two upper-case digits per byte, one blank between bytes. -/
def readHex : Str → Option Bytes
  | [] => some []
  | [h, l] =>
    match hexVal h, hexVal l with
    | some a, some b => some [UInt8.ofNat (16 * a + b)]
    | _, _ => none
  | h :: l :: ' ' :: h2 :: rest =>
    match hexVal h, hexVal l, readHex (h2 :: rest) with
    | some a, some b, some bs => some (UInt8.ofNat (16 * a + b) :: bs)
    | _, _, _ => none
  | _ => none

/-! ### Delimited rows (RFC 4180 reading, separator a parameter) -/

/-- Reads a quoted field after its opening quote: content and what follows the closing quote. -/
def readQuoted : Str → Option (Str × Str)
  | [] => none
  | '"' :: '"' :: rest => (readQuoted rest).map fun (s, r) => ('"' :: s, r)
  | '"' :: rest => some ([], rest)
  | c :: rest => (readQuoted rest).map fun (s, r) => (c :: s, r)

/-- Reads an unquoted field: characters up to the separator; quotes and line breaks may not occur. -/
def readBare (sep : Char) : Str → Option (Str × Str)
  | [] => some ([], [])
  | c :: rest =>
    if c = sep then some ([], c :: rest)
    else if c = '"' ∨ c = '\r' ∨ c = '\n' then none
    else (readBare sep rest).map fun (s, r) => (c :: s, r)

/-- Reads one field. -/
def readField (sep : Char) : Str → Option (Str × Str)
  | '"' :: rest => readQuoted rest
  | s => readBare sep s

/-- Reads at most `n` fields of a row (separator between fields, nothing after the last). -/
def readRow (sep : Char) : Nat → Str → Option (List Str)
  | 0, _ => none
  | n + 1, s =>
    match readField sep s with
    | none => none
    | some (f, []) => some [f]
    | some (f, c :: rest) =>
      if c = sep then (readRow sep n rest).map (f :: ·) else none

/-- Joins fields with a separator. -/
def joinSep (sep : Char) : List Str → Str
  | [] => []
  | [f] => f
  | f :: g :: fs => f ++ sep :: joinSep sep (g :: fs)

end Notatin.Spec
