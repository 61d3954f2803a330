import Verif.TimeUtil.Spec

/-! # Specification: the texts of RFC 1123 and RFC 2822 dates (nothing from the model is used) -/
namespace Verif.TimeRfc.Spec
open Verif.TimeUtil.Spec

def asc (s : String) : List Byte := s.toList.map fun c => UInt8.ofNat c.toNat

/-- The day of the week, 0 = Sunday: 0000-01-01 of the proleptic Gregorian calendar was a Saturday. -/
def weekday (c : Civil) : Nat := (c.days + 6) % 7

def dayName (n : Nat) : String :=
  match n with
  | 0 => "Sun" | 1 => "Mon" | 2 => "Tue" | 3 => "Wed" | 4 => "Thu" | 5 => "Fri" | _ => "Sat"

def monthName (n : Nat) : String :=
  match n with
  | 0 => "Jan" | 1 => "Feb" | 2 => "Mar" | 3 => "Apr" | 4 => "May" | 5 => "Jun"
  | 6 => "Jul" | 7 => "Aug" | 8 => "Sep" | 9 => "Oct" | 10 => "Nov" | _ => "Dec"

def four (n : Nat) : List Byte := [digit (n / 1000), digit (n / 100), digit (n / 10), digit n]

/-- `Fri, 11 Jun 2021 03:42:56 ` followed by the name of the zone. -/
def text (c : Civil) (zone : String) : List Byte :=
  asc (dayName (weekday c)) ++ asc ", " ++ two c.day ++ asc " " ++ asc (monthName c.month) ++ asc " " ++ four c.year ++
    asc " " ++ two c.hour ++ asc ":" ++ two c.min ++ asc ":" ++ two c.sec ++ asc " " ++ asc zone

end Verif.TimeRfc.Spec
