import Verif.Model.KeyNode

/-!
The text of a time: `format_date_time`, /repo/src/util.rs lines 165-185.  The calendar and the
number formats are chrono's (third-party code, not in the repository); here they are written out
as chrono documents them: the proleptic Gregorian calendar, fields padded with zeros.
-/

namespace Notatin

/-- A number with `w` digits (chrono's `%Y`, `%m`, …, `%9f`; years have four digits here, see
`formatDateTime`). -/
def padded : Nat → Nat → Str
  | 0, _ => []
  | w + 1, n => padded w (n / 10) ++ [Char.ofNat (48 + n % 10)]

/-- chrono's calendar: the length of a year. -/
def yearLength (y : Nat) : Nat :=
  if y % 4 ≠ 0 then 365 else if y % 100 ≠ 0 then 366 else if y % 400 ≠ 0 then 365 else 366

/-- chrono's calendar: the year and the day in it (from 0), counted on from the first day of `y`. -/
def yearOf : Nat → Nat → Nat → Nat × Nat
  | 0, y, d => (y, d)
  | fuel + 1, y, d => if d < yearLength y then (y, d) else yearOf fuel (y + 1) (d - yearLength y)

/-- chrono's calendar: the lengths of the months of a year of the given length. -/
def monthLengths (len : Nat) : List Nat := [31, len - 337, 31, 30, 31, 30, 31, 31, 30, 31, 30, 31]

/-- chrono's calendar: the month and the day in it (from 0). -/
def monthOf : List Nat → Nat → Nat → Nat × Nat
  | [], m, d => (m, d)
  | l :: ls, m, d => if d < l then (m, d) else monthOf ls (m + 1) (d - l)

/-- `date_time.format("%Y-%m-%dT%H:%M:%S")`, /repo/src/util.rs line 178, on the seconds since
1601-01-01. -/
def dateText (secs : Nat) : Str :=
  let days := secs / 86400
  let sod := secs % 86400
  let yd := yearOf days 1601 days
  let md := monthOf (monthLengths (yearLength yd.1)) 1 yd.2
  padded 4 yd.1 ++ '-' :: padded 2 md.1 ++ '-' :: padded 2 (md.2 + 1) ++
    'T' :: padded 2 (sod / 3600) ++ ':' :: padded 2 (sod / 60 % 60) ++ ':' :: padded 2 (sod % 60)

/-- `format_date_time`, /repo/src/util.rs lines 166-185.  A `DateTime<Utc>` is its nanoseconds
since 1970, here only those that fit in `i64` (`dateTimeFromFiletime` yields no other), so it is
after 1601 and its year has four digits.  The case that `%9f` gives another number of digits does
not occur; the last line is `to_rfc3339_opts(SecondsFormat::Nanos, true)`. -/
def formatDateTime (nanos : Int) : Str :=
  let t := (nanos + 11644473600 * 1000000000).toNat
  let fraction := padded 9 (t % 1000000000)
  if fraction[8]? = some '0' ∧ fraction[7]? = some '0' then
    dateText (t / 1000000000) ++ '.' :: fraction.take 7 ++ ['Z']
  else dateText (t / 1000000000) ++ '.' :: fraction ++ ['Z']

/-- `util::format_date_time(key.last_key_written_date_and_time())`,
/repo/bin/reg_dump/tsv_writer.rs line 103, /repo/bin/reg_dump/common_writer.rs line 197,
/repo/bin/reg_dump/xlsx_writer.rs line 188, with `last_key_written_date_and_time`,
/repo/src/cell_key_node.rs lines 276-278; the same in the JSON field,
/repo/src/field_serializers.rs line 38. -/
def keyTime (k : KeyNode) : Str := formatDateTime (dateTimeFromFiletime k.lastWritten)

end Notatin
