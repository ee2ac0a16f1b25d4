import Verif.Base.Decimal
/-!
# Reading RFC 3339 timestamps, by the rules of the calendar
-/

namespace Sawmill.Cal

/-- A leap year of the Gregorian calendar. -/
def leap (y : Nat) : Bool := y % 4 = 0 ∧ (y % 100 ≠ 0 ∨ y % 400 = 0)

def daysInYear (y : Nat) : Nat := if leap y then 366 else 365

/-- The number of days in the month. -/
def daysIn (y m : Nat) : Nat :=
  match m with
  | 1 => 31 | 2 => if leap y then 29 else 28 | 3 => 31 | 4 => 30 | 5 => 31 | 6 => 30
  | 7 => 31 | 8 => 31 | 9 => 30 | 10 => 31 | 11 => 30 | 12 => 31 | _ => 0

/-- Days from January 1 of year 0 to January 1 of year `y`: the sum of the lengths of the years in between. -/
def daysBeforeYear : Nat → Nat
  | 0 => 0
  | y + 1 => daysBeforeYear y + daysInYear y

/-- Days of the year `y` before the month `m` (1 to 12): the sum of the lengths of the months before. -/
def daysBeforeMonth (y : Nat) : Nat → Nat
  | 0 => 0
  | m + 1 => daysBeforeMonth y m + daysIn y m

/-- Days from 1970-01-01 to the given date. -/
def dayNumber (y m d : Nat) : Int := (daysBeforeYear y + daysBeforeMonth y m + (d - 1) : Nat) - (daysBeforeYear 1970 : Nat)

/-- The value of a string of decimal digits. -/
def number (s : Bytes) : Option Nat :=
  s.foldl (fun acc b => acc.bind fun n => if isDigit b then some (10 * n + (b.toNat - 48)) else none) (some 0)

/-- The digits behind the decimal point, as nanoseconds: at most nine of them. -/
def fraction (s : Bytes) : Option Nat := if s.length ≤ 9 then (number s).map (· * 10 ^ (9 - s.length)) else none

/-- The instant, in nanoseconds since 1970-01-01T00:00:00Z, of a text `YYYY-MM-DDThh:mm:ssZ` or `YYYY-MM-DDThh:mm:ss.fZ` with 1 to 9 digits `f`; nothing for any other text. -/
def parseRFC3339 (s : Bytes) : Option Int :=
  match s with
  | y1 :: y2 :: y3 :: y4 :: 45 :: m1 :: m2 :: 45 :: d1 :: d2 :: 84 :: h1 :: h2 :: 58 :: n1 :: n2 :: 58 :: s1 :: s2 :: rest => do
    let y ← number [y1, y2, y3, y4]
    let m ← number [m1, m2]
    let d ← number [d1, d2]
    let h ← number [h1, h2]
    let n ← number [n1, n2]
    let s ← number [s1, s2]
    let f ← match rest with
      | [90] => some 0
      | 46 :: rest => if rest.getLast? = some 90 ∧ rest.length ≥ 2 then fraction rest.dropLast else none
      | _ => none
    if 1 ≤ m ∧ m ≤ 12 ∧ 1 ≤ d ∧ d ≤ daysIn y m ∧ h < 24 ∧ n < 60 ∧ s < 60 then
      some ((dayNumber y m d * 86400 + (h * 3600 + n * 60 + s : Nat)) * 1000000000 + f)
    else none
  | _ => none

end Sawmill.Cal
