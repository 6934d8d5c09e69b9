import Verif.JsonText

/-!
# Model: the text of a time in JSON

json-encode.go:46-56 and json-decode.go:51-66 leave times to `time.Time.MarshalJSON` and `UnmarshalJSON` of the standard
library.  This file models these (package time of Go 1.12: time.go, format.go), function by function, so that the
abstract `timeText` and `timeParse` of `JLib` can be replaced by them.
-/

namespace Amino
namespace GoTime

/-- time.go `isLeap`. -/
def isLeap (y : Int) : Bool := y % 4 == 0 && (y % 100 != 0 || y % 400 == 0)

/-- time.go `daysBefore`. -/
def daysBefore : List Nat := [0, 31, 59, 90, 120, 151, 181, 212, 243, 273, 304, 334, 365]

/-- time.go `absoluteZeroYear`. -/
def absoluteZeroYear : Int := -292277022399

/-- time.go `unixToInternal + internalToAbsolute`, in days: 1969 years of the Gregorian calendar and the 292277022400 years
from the absolute zero to year 1. -/
def unixToAbsDays : Nat := (1969 * 365 + 1969 / 4 - 1969 / 100 + 1969 / 400) + 730692556 * 146097

/-- time.go `Time.abs` for a UTC time: seconds since the absolute zero, a uint64. -/
def abs (s : Int) : Nat := ((s + unixToAbsDays * 86400) % 2 ^ 64).toNat

/-- time.go `absDate`, first part: year since the absolute zero and day of the year, from the days since the absolute
zero. -/
def absYear (d : Nat) : Nat × Nat :=
  let n4 := d / 146097
  let d := d - 146097 * n4
  let n3 := d / 36524 - d / 36524 / 4
  let d := d - 36524 * n3
  let n2 := d / 1461
  let d := d - 1461 * n2
  let n1 := d / 365 - d / 365 / 4
  (400 * n4 + 100 * n3 + 4 * n2 + n1, d - 365 * n1)

/-- time.go `absDate`, second part: month (January is 1) and day of the month. -/
def monthDay (leap : Bool) (yday : Nat) : Nat × Nat :=
  if leap && yday == 59 then (2, 29)
  else
    let day := if leap && decide (59 < yday) then yday - 1 else yday
    let month := day / 31
    if daysBefore.getD (month + 1) 0 ≤ day then (month + 2, day - daysBefore.getD (month + 1) 0 + 1)
    else (month + 1, day - daysBefore.getD month 0 + 1)

/-- format.go `appendInt`, for numbers of at most `w` digits. -/
def padInt : Nat → Nat → Bytes
  | 0, _ => []
  | w + 1, x => padInt w (x / 10) ++ [UInt8.ofNat (0x30 + x % 10)]

/-- format.go `formatNano`, without the trailing zeros. -/
def trimZeros (b : Bytes) : Bytes := (b.reverse.dropWhile (· == 0x30)).reverse

/-- format.go `formatNano` with `n = 9` and `trim`. -/
def fraction (ns : Nat) : Bytes := if trimZeros (padInt 9 ns) = [] then [] else 0x2e :: trimZeros (padInt 9 ns)

/-- time.go `Time.MarshalJSON` of a UTC time: `"2006-01-02T15:04:05.999999999Z"`, or an error. -/
def text (s ns : Int) : Option Bytes :=
  let a := abs s
  let yd := absYear (a / 86400)
  let y := yd.1 + absoluteZeroYear
  let md := monthDay (isLeap y) yd.2
  let t := a % 86400
  if y < 0 ∨ 10000 ≤ y then none
  else some (0x22 :: (padInt 4 y.toNat ++ 0x2d :: (padInt 2 md.1 ++ 0x2d :: (padInt 2 md.2 ++ 0x54 :: (padInt 2 (t / 3600) ++
    0x3a :: (padInt 2 (t % 3600 / 60) ++ 0x3a :: (padInt 2 (t % 60) ++ (fraction ns.toNat ++ [0x5a, 0x22]))))))))

/-- format.go `skip`, of one character that is not a space. -/
def lit (c : UInt8) : Bytes → Option Bytes
  | x :: r => if x = c then some r else none
  | [] => none

/-- The digit's value. -/
def digVal (c : UInt8) : Nat := c.toNat - 0x30

/-- format.go `getnum`. -/
def getnum (fixed : Bool) : Bytes → Option (Nat × Bytes)
  | [] => none
  | [a] => if isDigit a && !fixed then some (digVal a, []) else none
  | a :: b :: r =>
    if !isDigit a then none
    else if isDigit b then some (10 * digVal a + digVal b, r)
    else if fixed then none
    else some (digVal a, b :: r)

/-- format.go:  the four digits of `stdLongYear`, read by `atoi`. -/
def getYear : Bytes → Option (Nat × Bytes)
  | a :: b :: c :: d :: r =>
    if isDigit a && isDigit b && isDigit c && isDigit d then
      some (1000 * digVal a + 100 * digVal b + 10 * digVal c + digVal d, r)
    else none
  | _ => none

/-- `atoi` of digits. -/
def number (ds : Bytes) : Nat := ds.foldl (fun n c => 10 * n + digVal c) 0

/-- format.go `Parse`, the special case of a fraction that is not in the layout, and `parseNanoseconds`. -/
def getFraction : Bytes → Option (Nat × Bytes)
  | 0x2e :: a :: r =>
    if isDigit a then
      let ds := (a :: r).takeWhile isDigit
      if 1000000000 ≤ number ds then none else some (number ds * 10 ^ (9 - ds.length), (a :: r).dropWhile isDigit)
    else some (0, 0x2e :: a :: r)
  | r => some (0, r)

/-- time.go `daysIn`. -/
def daysIn (m : Nat) (leap : Bool) : Nat :=
  if m == 2 && leap then 29 else daysBefore.getD m 0 - daysBefore.getD (m - 1) 0

/-- time.go `Date`, for a date and a time of day that need no normalisation, in UTC: seconds since 1970. -/
def date (year month day hour min sec : Nat) : Int :=
  let y := (year - absoluteZeroYear).toNat
  let n4 := y / 400
  let y := y - 400 * n4
  let n3 := y / 100
  let y := y - 100 * n3
  let n2 := y / 4
  let y := y - 4 * n2
  let d := 146097 * n4 + 36524 * n3 + 1461 * n2 + 365 * y + daysBefore.getD (month - 1) 0
  let d := if isLeap year && decide (3 ≤ month) then d + 1 else d
  let d := d + (day - 1)
  (d * 86400 + (hour * 3600 + min * 60 + sec) : Nat) - (unixToAbsDays * 86400 : Nat)

/-- time.go `(*Time).UnmarshalJSON`, format.go `Parse` with the layout `"2006-01-02T15:04:05Z07:00"`.
Simplified: only the zone `Z` is read; json-decode.go:53 lets no other text come here. -/
def parse (bz : Bytes) : Option (Int × Int) := do
  let r ← lit 0x22 bz
  let (year, r) ← getYear r
  let r ← lit 0x2d r
  let (month, r) ← getnum true r
  guard (1 ≤ month ∧ month ≤ 12)
  let r ← lit 0x2d r
  let (day, r) ← getnum true r
  let r ← lit 0x54 r
  let (hour, r) ← getnum false r
  guard (hour < 24)
  let r ← lit 0x3a r
  let (min, r) ← getnum true r
  guard (min < 60)
  let r ← lit 0x3a r
  let (sec, r) ← getnum true r
  guard (sec < 60)
  let (ns, r) ← getFraction r
  let r ← lit 0x5a r
  let r ← lit 0x22 r
  guard (r = [])
  guard (1 ≤ day ∧ day ≤ daysIn month (isLeap year))
  pure (date year month day hour min sec, ns)

end GoTime

/-- The library with the modelled times. -/
def JLib.withTime (J : JLib) : JLib := { J with timeText := GoTime.text, timeParse := GoTime.parse }

end Amino
