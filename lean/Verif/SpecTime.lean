import Verif.SpecJson

/-!
# Specification: dates and times of day in UTC, and how RFC 3339 writes them
-/

namespace Amino.Spec

/-- The Gregorian rule. -/
def leapYear (y : Nat) : Bool := decide (y % 4 = 0 ∧ (y % 100 ≠ 0 ∨ y % 400 = 0))

def yearLen (y : Nat) : Nat := if leapYear y then 366 else 365

/-- Days from 1 January of year 0 to 1 January of year `y`. -/
def daysBeforeYear : Nat → Nat
  | 0 => 0
  | y + 1 => daysBeforeYear y + yearLen y

/-- Length of a month; January is 1. -/
def monthLen (leap : Bool) : Nat → Nat
  | 2 => if leap then 29 else 28
  | 4 | 6 | 9 | 11 => 30
  | _ => 31

/-- Days from 1 January to the first of the month. -/
def daysBeforeMonth (leap : Bool) : Nat → Nat
  | 0 => 0
  | 1 => 0
  | m + 2 => daysBeforeMonth leap (m + 1) + monthLen leap (m + 1)

/-- A date and a time of day. -/
structure Stamp where
  year : Nat
  month : Nat
  day : Nat
  hour : Nat
  min : Nat
  sec : Nat
  nano : Nat

structure Stamp.Valid (x : Stamp) : Prop where
  year : x.year < 10000
  month : 1 ≤ x.month ∧ x.month ≤ 12
  day : 1 ≤ x.day ∧ x.day ≤ monthLen (leapYear x.year) x.month
  hour : x.hour < 24
  min : x.min < 60
  sec : x.sec < 60
  nano : x.nano < 1000000000

/-- Days from 1 January of year 0. -/
def Stamp.days (x : Stamp) : Nat := daysBeforeYear x.year + daysBeforeMonth (leapYear x.year) x.month + (x.day - 1)

/-- Seconds since 1970, as the calendar counts them (no leap seconds). -/
def Stamp.unix (x : Stamp) : Int :=
  ((x.days : Int) - daysBeforeYear 1970) * 86400 + (x.hour * 3600 + x.min * 60 + x.sec : Nat)

/-- `b` is the number `x` written with `w` digits. -/
structure Numeral (w x : Nat) (b : Bytes) : Prop where
  length : b.length = w
  digits : ∀ c ∈ b, Digit c
  value : decVal b = x

/-- The fraction of a second: up to nine digits, or nothing. -/
inductive FracText : Nat → Bytes → Prop
  | none : FracText 0 []
  | some {ds : Bytes} : ds ≠ [] → ds.length ≤ 9 → (∀ c ∈ ds, Digit c) →
      FracText (decVal ds * 10 ^ (9 - ds.length)) (0x2e :: ds)

/-- `"2006-01-02T15:04:05.999Z"` -/
inductive StampText (x : Stamp) : Bytes → Prop
  | mk {y mo d h mi s f : Bytes} : Numeral 4 x.year y → Numeral 2 x.month mo → Numeral 2 x.day d → Numeral 2 x.hour h →
      Numeral 2 x.min mi → Numeral 2 x.sec s → FracText x.nano f →
      StampText x (0x22 :: (y ++ 0x2d :: (mo ++ 0x2d :: (d ++ 0x54 :: (h ++ 0x3a :: (mi ++ 0x3a :: (s ++ (f ++
        [0x5a, 0x22]))))))))

end Amino.Spec
