import Verif.Common.Mem
/-! # Specification: the proleptic Gregorian calendar and time texts (nothing from the model is used) -/
namespace Verif.TimeUtil.Spec

def leap (y : Nat) : Bool := y % 4 == 0 && (y % 100 != 0 || y % 400 == 0)

def yearLen (y : Nat) : Nat := if leap y then 366 else 365

/-- Length of month `m` (January is 0). -/
def monthLen (y m : Nat) : Nat := [31, if leap y then 29 else 28, 31, 30, 31, 30, 31, 31, 30, 31, 30, 31].getD m 0

/-- Days from 0000-01-01 to 1 January of `y`. -/
def daysBeforeYear : Nat → Nat
  | 0 => 0
  | y + 1 => daysBeforeYear y + yearLen y

/-- Days from 1 January to the first day of month `m`. -/
def daysBeforeMonth (y : Nat) : Nat → Nat
  | 0 => 0
  | m + 1 => daysBeforeMonth y m + monthLen y m

/-- A civil date and time of day; `month` counts from 0, `day` from 1. -/
structure Civil where
  year : Nat
  month : Nat
  day : Nat
  hour : Nat
  min : Nat
  sec : Nat
deriving DecidableEq

/-- It exists in the calendar. -/
def Civil.Valid (c : Civil) : Prop :=
  c.month < 12 ∧ 1 ≤ c.day ∧ c.day ≤ monthLen c.year c.month ∧ c.hour < 24 ∧ c.min < 60 ∧ c.sec < 60

/-- Days from 0000-01-01. -/
def Civil.days (c : Civil) : Nat := daysBeforeYear c.year + daysBeforeMonth c.year c.month + (c.day - 1)

/-- Seconds from 0000-01-01 00:00:00. -/
def Civil.seconds (c : Civil) : Nat := c.days * 86400 + c.hour * 3600 + c.min * 60 + c.sec

/-- The Unix epoch. -/
def epoch : Civil := { year := 1970, month := 0, day := 1, hour := 0, min := 0, sec := 0 }

/-- `c` is the civil time `unix` seconds after the epoch in UTC, shown in the zone `zone` hours east. -/
def IsLocal (c : Civil) (unix zone : Int) : Prop :=
  c.Valid ∧ (c.seconds : Int) = epoch.seconds + unix + 3600 * zone

def digit (n : Nat) : Byte := UInt8.ofNat (48 + n % 10)
def two (n : Nat) : List Byte := [digit (n / 10), digit n]
def three (n : Nat) : List Byte := [digit (n / 100), digit (n / 10), digit n]

/-- `MM-DD HH:MM:SS.mmm` -/
def stampText (c : Civil) (ms : Nat) : List Byte :=
  two (c.month + 1) ++ [45] ++ two c.day ++ [32] ++ two c.hour ++ [58] ++ two c.min ++ [58] ++ two c.sec ++ [46] ++ three ms

/-- `MMDDHHMMSS.mmm` -/
def fileText (c : Civil) (ms : Nat) : List Byte :=
  two (c.month + 1) ++ two c.day ++ two c.hour ++ two c.min ++ two c.sec ++ [46] ++ three ms

end Verif.TimeUtil.Spec
