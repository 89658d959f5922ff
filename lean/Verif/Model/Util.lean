import Verif.Model.Log
/-
Model of `/repo/src/util.rs` (string decoding, time, escaping, LZNT1, path helpers).
-/
namespace Notatin

/-! ### UTF-16 -/

/-- `std::char::REPLACEMENT_CHARACTER`. -/
def replacementChar : Char := Char.ofNat 0xFFFD

/-- The `i`-th little-endian `u16` of a slice: `u16::from_le_bytes([slice[2*i], slice[2*i+1]])`,
/repo/src/util.rs line 35; `none` is the index panic. -/
def unitAt (slice : Bytes) (i : Nat) : Option Nat :=
  match slice[2 * i]?, slice[2 * i + 1]? with
  | some a, some b => some (a.toNat + 256 * b.toNat)
  | _, _ => none

/-- One step of the lazily evaluated pipeline of `from_utf16_le_string_single`
(/repo/src/util.rs lines 34-50): `decode_utf16`, replacement with a `WarningConversion`
log, `take_while(c != '\0')` which counts every inspected character.
The list holds the remaining units (`none`: evaluating the unit panics).
Returns the collected characters and the number of characters inspected. -/
def decodeLoop : List (Option Nat) → Logs → Res (Str × Nat × Logs)
  | [], logs => .ok ([], 0, logs)
  | none :: _, _ => .panic
  | some u :: us, logs =>
    if u < 0xD800 ∨ 0xE000 ≤ u then
      -- not a surrogate
      if u = 0 then .ok ([], 1, logs)
      else match decodeLoop us logs with
        | .ok (s, n, logs) => .ok (Char.ofNat u :: s, n + 1, logs)
        | .err => .err
        | .panic => .panic
    else if 0xDC00 ≤ u then
      -- a trailing surrogate
      match decodeLoop us (logs.add .WarningConversion) with
      | .ok (s, n, logs) => .ok (replacementChar :: s, n + 1, logs)
      | .err => .err
      | .panic => .panic
    else match us with
      | [] => .ok ([replacementChar], 1, logs.add .WarningConversion)
      | none :: _ => .panic
      | some u2 :: rest =>
        if 0xDC00 ≤ u2 ∧ u2 ≤ 0xDFFF then
          match decodeLoop rest logs with
          | .ok (s, n, logs) =>
            .ok (Char.ofNat (0x10000 + (u - 0xD800) * 0x400 + (u2 - 0xDC00)) :: s, n + 1, logs)
          | .err => .err
          | .panic => .panic
        else
          -- `u2` is handed back to the iterator
          match decodeLoop (some u2 :: rest) (logs.add .WarningConversion) with
          | .ok (s, n, logs) => .ok (replacementChar :: s, n + 1, logs)
          | .err => .err
          | .panic => .panic
termination_by us => us.length

/-- `from_utf16_le_string_single`, /repo/src/util.rs lines 28-57. Returns the string, the
character count minus one if positive, and the logs. -/
def fromUtf16Single (slice : Bytes) (count : Nat) (logs : Logs) : Res (Str × Nat × Logs) :=
  match decodeLoop ((List.range (count / 2)).map (unitAt slice)) logs with
  | .ok (s, n, logs) => .ok (s, if n > 0 then n - 1 else n, logs)
  | .err => .err
  | .panic => .panic

/-- `from_utf16_le_string`, /repo/src/util.rs lines 60-69. -/
def fromUtf16LeString (slice : Bytes) (count : Nat) (logs : Logs) : Res (Str × Logs) :=
  if count ≤ slice.length then
    match fromUtf16Single slice count logs with
    | .ok (s, _, logs) => .ok (s, logs)
    | .err => .err
    | .panic => .panic
  else .panic

/-- Rust's `char::is_whitespace` (Unicode `White_Space`), used by `str::trim`. -/
def isWhitespace (c : Char) : Bool :=
  let n := c.toNat
  (0x9 ≤ n && n ≤ 0xD) || n == 0x20 || n == 0x85 || n == 0xA0 || n == 0x1680
    || (0x2000 ≤ n && n ≤ 0x200A) || n == 0x2028 || n == 0x2029 || n == 0x202F
    || n == 0x205F || n == 0x3000

/-- `decoded.trim().is_empty()`. -/
def isBlank (s : Str) : Bool := s.all isWhitespace

/-- The loop of `from_utf16_le_strings`, /repo/src/util.rs lines 81-90. `offset` and `count`
as in the source; slicing `&slice[offset..]` beyond the end panics. -/
def utf16StringsLoop (slice : Bytes) (count offset : Nat) (logs : Logs) :
    Res (List Str × Logs) :=
  if offset < count then
    if offset ≤ slice.length then
      match fromUtf16Single (slice.drop offset) (count - offset) logs with
      | .ok (decoded, size, logs) =>
        if isBlank decoded then .ok ([], logs)
        else match utf16StringsLoop slice count (offset + size * 2 + 2) logs with
          | .ok (rest, logs) => .ok (decoded :: rest, logs)
          | .err => .err
          | .panic => .panic
      | .err => .err
      | .panic => .panic
    else .panic
  else .ok ([], logs)
termination_by count - offset

/-- `from_utf16_le_strings`, /repo/src/util.rs lines 72-92. -/
def fromUtf16LeStrings (slice : Bytes) (count : Nat) (logs : Logs) : Res (List Str × Logs) :=
  utf16StringsLoop slice count 0 logs

/-! ### ASCII -/

/-- `from_ascii`, /repo/src/util.rs lines 95-118: ASCII bytes are pushed as they are, other bytes
go through `decode_utf16` of the single unit `[b, 0]`. -/
def fromAscii : Bytes → Logs → Res (Str × Logs)
  | [], logs => .ok ([], logs)
  | b :: bs, logs =>
    if b.toNat < 128 then
      match fromAscii bs logs with
      | .ok (s, logs) => .ok (Char.ofNat b.toNat :: s, logs)
      | .err => .err
      | .panic => .panic
    else
      match decodeLoop [some b.toNat] logs with
      | .ok (u, _, logs) =>
        match fromAscii bs logs with
        | .ok (s, logs) => .ok (u ++ s, logs)
        | .err => .err
        | .panic => .panic
      | .err => .err
      | .panic => .panic

/-- `string_from_bytes`, /repo/src/util.rs lines 120-132. -/
def stringFromBytes (isAscii : Bool) (slice : Bytes) (count : Nat) (logs : Logs) :
    Res (Str × Logs) :=
  if isAscii then fromAscii slice logs else fromUtf16LeString slice count logs

/-- `parser_eat_remaining`, /repo/src/util.rs lines 135-146. -/
def eatRemaining (input : Bytes) (cellSize consumed : Nat) : Option (Bytes × Bytes) :=
  if consumed < cellSize then take (cellSize - consumed) input else some ([], input)

/-! ### Time -/

/-- Truncation to `i64` (`as i64`). -/
def wrapI64 (i : Int) : Int :=
  let m := i % 18446744073709551616
  if m < 9223372036854775808 then m else m - 18446744073709551616

/-- `get_date_time_from_filetime`, /repo/src/util.rs lines 149-163, as the number of nanoseconds
since 1970-01-01 that is added to the Unix epoch (chrono's date arithmetic is not modelled; the
sum is always in chrono's range). -/
def dateTimeFromFiletime (filetime : Nat) : Int :=
  wrapI64 ((filetime : Int) * 100 - 11644473600 * 1000000000)

/-! ### Names, hex, escaping, ROT13 -/

/-- `get_pretty_name`, /repo/src/util.rs lines 197-203. -/
def getPrettyName (name : Str) : Str := if name.isEmpty then "(default)".toList else name

/-- Upper-case hex digit as printed by `{:X}`. -/
def hexDigit (n : Nat) : Char :=
  if n < 10 then Char.ofNat (48 + n) else Char.ofNat (55 + n)

/-- `str::trim_end`. -/
def trimEnd (s : Str) : Str := (s.reverse.dropWhile isWhitespace).reverse

/-- `to_hex_string`, /repo/src/util.rs lines 206-214. -/
def toHexString (bytes : Bytes) : Str :=
  trimEnd (bytes.flatMap fun b => [hexDigit (b.toNat / 16), hexDigit (b.toNat % 16), ' '])

/-- `escape_string`, /repo/src/util.rs lines 216-223. -/
def escapeString (orig : Str) : Str :=
  if orig.any (fun c => ['\t', '\r', '\n', ',', '"'].contains c) then
    '"' :: (orig.flatMap fun c => if c = '"' then ['"', '"'] else [c]) ++ ['"']
  else orig

/-- `decode_rot13` on one character, /repo/src/util.rs lines 245-249. -/
def rot13Char (c : Char) : Char :=
  if ('A' ≤ c ∧ c ≤ 'M') ∨ ('a' ≤ c ∧ c ≤ 'm') then Char.ofNat (c.toNat + 13)
  else if ('N' ≤ c ∧ c ≤ 'Z') ∨ ('n' ≤ c ∧ c ≤ 'z') then Char.ofNat (c.toNat - 13)
  else c

/-- `decode_rot13`, /repo/src/util.rs lines 243-251. -/
def decodeRot13 (text : Str) : Str := text.map rot13Char

/-! ### Paths -/

/-- UTF-8 length in bytes (Rust string offsets are byte offsets). -/
def utf8Len (s : Str) : Nat := (s.map Char.utf8Size).sum

/-- `s[off..]` for a byte offset; `none` is the panic (past the end or inside a character). -/
def dropBytes : Nat → Str → Option Str
  | 0, s => some s
  | _ + 1, [] => none
  | n + 1, c :: s => if c.utf8Size ≤ n + 1 then dropBytes (n + 1 - c.utf8Size) s else none
termination_by _ s => s.length

/-- `str::find('\\')`: byte offset of the first backslash. -/
def findBackslash : Str → Option Nat
  | [] => none
  | c :: s => if c = '\\' then some 0 else (findBackslash s).map (· + c.utf8Size)

/-- `get_root_path_offset`, /repo/src/util.rs lines 336-345. -/
def getRootPathOffset : Str → Nat
  | '\\' :: path =>
    match findBackslash path with
    | some secondBackslash => secondBackslash + 2
    | none => 0
  | _ => 0

end Notatin
