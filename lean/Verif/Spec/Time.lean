import Verif.Model.Base

/-!
Specification for times: the Gregorian calendar, the instant a FILETIME denotes, and a reader for
times written as `2012-04-06T09:04:05.1468083Z`.
-/

namespace Notatin.Spec

/-- The Gregorian leap-year rule. -/
def isLeap (y : Nat) : Bool := (y % 4 == 0 && y % 100 != 0) || y % 400 == 0

/-- Days from 1 January of year `a` to 1 January of year `a + n`. -/
def daysFrom (a : Nat) : Nat → Nat
  | 0 => 0
  | n + 1 => (if isLeap a then 366 else 365) + daysFrom (a + 1) n

/-- The length of a month. -/
def monthLength (y m : Nat) : Nat :=
  if m = 2 then if isLeap y then 29 else 28
  else if m = 4 ∨ m = 6 ∨ m = 9 ∨ m = 11 then 30 else 31

/-- Days from 1 January to the first day of the month after `m` months. -/
def monthStart (y : Nat) : Nat → Nat
  | 0 => 0
  | m + 1 => monthStart y m + monthLength y (m + 1)

/-- Reads exactly `w` decimal digits in front of a number read so far. -/
def readDecimal : Nat → Nat → Str → Option (Nat × Str)
  | 0, acc, s => some (acc, s)
  | _ + 1, _, [] => none
  | w + 1, acc, c :: s =>
    if 48 ≤ c.toNat ∧ c.toNat ≤ 57 then readDecimal w (10 * acc + (c.toNat - 48)) s else none

/-- Reads one given character. -/
def readChar (c : Char) : Str → Option Str
  | [] => none
  | d :: s => if c = d then some s else none

/-- The numbers of a written time. -/
structure Stamp where
  year : Nat
  month : Nat
  day : Nat
  hour : Nat
  minute : Nat
  second : Nat
  fraction : Nat
deriving DecidableEq, Repr

/-- Reads `YYYY-MM-DDThh:mm:ss.fffffffZ` and nothing else. -/
def readStamp (s : Str) : Option Stamp := do
  let (year, s) ← readDecimal 4 0 s
  let s ← readChar '-' s
  let (month, s) ← readDecimal 2 0 s
  let s ← readChar '-' s
  let (day, s) ← readDecimal 2 0 s
  let s ← readChar 'T' s
  let (hour, s) ← readDecimal 2 0 s
  let s ← readChar ':' s
  let (minute, s) ← readDecimal 2 0 s
  let s ← readChar ':' s
  let (second, s) ← readDecimal 2 0 s
  let s ← readChar '.' s
  let (fraction, s) ← readDecimal 7 0 s
  let s ← readChar 'Z' s
  if s = [] then some ⟨year, month, day, hour, minute, second, fraction⟩ else none

/-- The time of day and the day of the calendar exist. -/
def Stamp.Valid (t : Stamp) : Prop :=
  1601 ≤ t.year ∧ 1 ≤ t.month ∧ t.month ≤ 12 ∧ 1 ≤ t.day ∧ t.day ≤ monthLength t.year t.month ∧
    t.hour < 24 ∧ t.minute < 60 ∧ t.second < 60

/-- The FILETIME a written time denotes: 100 ns ticks since 1601-01-01. -/
def Stamp.ticks (t : Stamp) : Nat :=
  ((daysFrom 1601 (t.year - 1601) + monthStart t.year (t.month - 1) + (t.day - 1)) * 86400 +
    t.hour * 3600 + t.minute * 60 + t.second) * 10000000 + t.fraction

/-- The text is the FILETIME, written out. -/
def Tells (s : Str) (ticks : Nat) : Prop :=
  ∃ t, readStamp s = some t ∧ t.Valid ∧ t.ticks = ticks

/-- The first FILETIME of the year 10000, which has no four digits. -/
def year10000 : Nat := daysFrom 1601 (10000 - 1601) * 864000000000

/-- The full claim of C58 about a function that writes FILETIMEs: up to the year 9999, what it
writes tells the FILETIME, and texts are ordered as the times are. -/
def TimesTold (time : Nat → Str) : Prop :=
  ∀ a, a < year10000 → Tells (time a) a ∧ ∀ b, b < year10000 → (time a < time b ↔ a < b)

end Notatin.Spec
