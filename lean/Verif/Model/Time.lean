import Verif.Base.Decimal
/-!
# Timestamps (pkg/event/time.go)

`event.Time` is a number of nanoseconds (an int64). Its methods use `time.Time` of the Go standard library, of which the parts used here are modelled after Go 1.17's package time. An int64 is an
`Int` between -2^63 and 2^63 - 1; every operation that could leave this range is followed by `wrapI64`.
Of `time.Time` the wall clock without monotonic reading and the location UTC are modelled (time/time.go: the fields `wall` = nanoseconds, `ext` = seconds since January 1, year 1).
-/

namespace Sawmill

/-- Two's complement wrap-around of int64 arithmetic. -/
def wrapI64 (x : Int) : Int := (x + 2 ^ 63) % 2 ^ 64 - 2 ^ 63

/-- `time.Time` (standard library), in UTC. -/
structure GoTime where
  ext : Int
  nsec : Nat
  deriving DecidableEq, Repr

/-- `unixToInternal` (standard library): seconds from year 1 to 1970. -/
def unixToInternal : Int := (1969 * 365 + 1969 / 4 - 1969 / 100 + 1969 / 400) * 86400

/-- `time.Unix` (standard library). Go's `/` truncates. -/
def goUnix (sec nsec : Int) : GoTime :=
  let (sec, nsec) :=
    if nsec < 0 ∨ nsec ≥ 1000000000 then
      let n := Int.tdiv nsec 1000000000
      let sec := wrapI64 (sec + n)
      let nsec := wrapI64 (nsec - wrapI64 (n * 1000000000))
      if nsec < 0 then (wrapI64 (sec - 1), wrapI64 (nsec + 1000000000)) else (sec, nsec)
    else (sec, nsec)
  ⟨wrapI64 (sec + unixToInternal), nsec.toNat⟩

/-- `time.Time.UnixNano` (standard library). -/
def GoTime.unixNano (t : GoTime) : Int := wrapI64 (wrapI64 (wrapI64 (t.ext - unixToInternal) * 1000000000) + t.nsec)

/-- `Time.GoTime`: pkg/event/time.go:33-35. -/
def timeGoTime (unixNanos : Int) : GoTime := goUnix 0 unixNanos

/-! ## Formatting -/

/-- `absoluteZeroYear` (standard library). -/
def absoluteZeroYear : Int := -292277022399

/-- `absoluteToInternal` (standard library): computed there with float arithmetic `(absoluteZeroYear - 1) * 365.2425 * 86400`, an exact integer. -/
def absoluteToInternal : Int := (absoluteZeroYear - 1) * 3652425 * 86400 / 10000

/-- `Time.abs` (standard library), in UTC: uint64 seconds since the absolute zero year. -/
def GoTime.abs (t : GoTime) : Nat := ((t.ext - absoluteToInternal) % 2 ^ 64).toNat

/-- `isLeap` (standard library). Go's `%` and Lean's agree on being zero. -/
def isLeap (year : Int) : Bool := year % 4 = 0 ∧ (year % 100 ≠ 0 ∨ year % 400 = 0)

/-- `daysBefore` (standard library). -/
def daysBefore : List Nat :=
  [0, 31, 31 + 28, 31 + 28 + 31, 31 + 28 + 31 + 30, 31 + 28 + 31 + 30 + 31, 31 + 28 + 31 + 30 + 31 + 30, 31 + 28 + 31 + 30 + 31 + 30 + 31,
   31 + 28 + 31 + 30 + 31 + 30 + 31 + 31, 31 + 28 + 31 + 30 + 31 + 30 + 31 + 31 + 30, 31 + 28 + 31 + 30 + 31 + 30 + 31 + 31 + 30 + 31,
   31 + 28 + 31 + 30 + 31 + 30 + 31 + 31 + 30 + 31 + 30, 31 + 28 + 31 + 30 + 31 + 30 + 31 + 31 + 30 + 31 + 30 + 31]

/-- `absDate` (standard library), the part that finds the year and the day in it. -/
def absYear (abs : Nat) : Int × Nat :=
  let d := abs / 86400
  let n := d / 146097
  let y := 400 * n
  let d := d - 146097 * n
  let n := d / 36524
  let n := n - n / 4
  let y := y + 100 * n
  let d := d - 36524 * n
  let n := d / 1461
  let y := y + 4 * n
  let d := d - 1461 * n
  let n := d / 365
  let n := n - n / 4
  let y := y + n
  let d := d - 365 * n
  ((y : Int) + absoluteZeroYear, d)

/-- `absDate` (standard library), the part that finds the month and the day in it. -/
def monthDay (year : Int) (yday : Nat) : Nat × Nat :=
  if isLeap year ∧ yday = 31 + 29 - 1 then (2, 29)
  else
    let day := if isLeap year ∧ yday > 31 + 29 - 1 then yday - 1 else yday
    let month := day / 31
    let end_ := daysBefore.getD (month + 1) 0
    if day ≥ end_ then (month + 2, day - end_ + 1) else (month + 1, day - daysBefore.getD month 0 + 1)

/-- `Time.Date` (standard library). -/
def absDate (abs : Nat) : Int × Nat × Nat :=
  let (year, yday) := absYear abs
  let (month, day) := monthDay year yday
  (year, month, day)

/-- `absClock` (standard library). -/
def absClock (abs : Nat) : Nat × Nat × Nat :=
  let sec := abs % 86400
  let hour := sec / 3600
  let sec := sec - hour * 3600
  let min := sec / 60
  (hour, min, sec - min * 60)

/-- `appendInt` (standard library): decimal with at least `width` digits. -/
def appendInt (x : Int) (width : Nat) : Bytes :=
  let d := itoa x.natAbs
  (if x < 0 then [45] else []) ++ List.replicate (width - d.length) 48 ++ d

/-- `formatNano` (standard library) for ".999999999": nine digits after a dot, trailing zeros removed, nothing if nothing is left. -/
def formatNano (nsec : Nat) : Bytes :=
  let digits := appendInt nsec 9
  let kept := (digits.reverse.dropWhile (· = 48)).reverse
  if kept = [] then [] else 46 :: kept

/-- `Time.Format(time.RFC3339Nano)` (standard library), in UTC: the layout is "2006-01-02T15:04:05.999999999Z07:00". -/
def GoTime.rfc3339Nano (t : GoTime) : Bytes :=
  let (year, month, day) := absDate t.abs
  let (hour, min, sec) := absClock t.abs
  appendInt year 4 ++ [45] ++ appendInt month 2 ++ [45] ++ appendInt day 2 ++ [84] ++ appendInt hour 2 ++ [58] ++ appendInt min 2 ++ [58] ++ appendInt sec 2 ++
    formatNano t.nsec ++ [90]

/-- `Time.String`: pkg/event/time.go:37-39. -/
def timeString (unixNanos : Int) : Bytes := appendInt unixNanos 0

/-- `Time.MarshalJSON`: pkg/event/time.go:41-43. -/
def timeMarshalJSON (unixNanos : Int) : Bytes := [34] ++ (timeGoTime unixNanos).rfc3339Nano ++ [34]

end Sawmill
