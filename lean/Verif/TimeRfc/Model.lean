import Verif.Common.Dec
import Verif.Common.CStr

/-!
# Model of `/repo/src/time/time_rfc1123.c` and `/repo/src/time/time_rfc2822.c`

`gmtime_r` and `strftime` are library functions.  `gmtime_r` is a parameter (`none`: it fails and leaves the structure
indeterminate, and the code goes on to use it: undefined).  `strftime` is modelled for the conversions used, in the C
locale; when the text with its terminator does not fit it returns 0 and what it leaves in the array is unspecified: a
parameter `junk` gives the bytes it leaves.  `out` is `none` for the null pointer, otherwise the object it points to.
-/
namespace Verif.TimeRfc
open Strings (decText)

/-- `struct tm`; `year` is the full year. -/
structure Tm where
  sec : Nat
  min : Nat
  hour : Nat
  mday : Nat
  mon : Nat
  year : Int
  wday : Nat
deriving DecidableEq

/-- A string literal. -/
def lit (s : String) : List Byte := s.toList.map fun c => UInt8.ofNat c.toNat

/-- time_rfc1123.c 5-6 `DAY_NAMES`. -/
def dayNames : List String := ["Sun", "Mon", "Tue", "Wed", "Thu", "Fri", "Sat"]

/-- time_rfc1123.c 7-9 `MONTH_NAMES`. -/
def monthNames : List String := ["Jan", "Feb", "Mar", "Apr", "May", "Jun", "Jul", "Aug", "Sep", "Oct", "Nov", "Dec"]

/-- Two digits, as `%d`, `%H`, `%M`, `%S` print them. -/
def pad2 (n : Nat) : List Byte := if n < 10 then 48 :: decText n else decText n

/-- One conversion of `strftime`, C locale; `none` outside the modelled set. -/
def conv (t : Tm) : Char → Option (List Byte)
  | 'a' => (["Sun", "Mon", "Tue", "Wed", "Thu", "Fri", "Sat"][t.wday]?).map lit
  | 'b' => (["Jan", "Feb", "Mar", "Apr", "May", "Jun", "Jul", "Aug", "Sep", "Oct", "Nov", "Dec"][t.mon]?).map lit
  | 'd' => some (pad2 t.mday)
  | 'H' => some (pad2 t.hour)
  | 'M' => some (pad2 t.min)
  | 'S' => some (pad2 t.sec)
  | 'T' => some (pad2 t.hour ++ [58] ++ pad2 t.min ++ [58] ++ pad2 t.sec)
  | 'Y' => some (if t.year < 0 then 45 :: decText (-t.year).toNat else decText t.year.toNat)
  | 'z' => some (lit "+0000")
  | _ => none

/-- The text `strftime` produces for a format. -/
def expand (t : Tm) : List Char → Option (List Byte)
  | [] => some []
  | '%' :: c :: f => do
    let a ← conv t c
    let b ← expand t f
    return a ++ b
  | c :: f => do
    let b ← expand t f
    return UInt8.ofNat c.toNat :: b

/-- `strftime(out, max, fmt, t)`; at most `max` bytes are written. -/
def strftime (junk : List Byte) (out : Mem) (max : Nat) (fmt : String) (t : Tm) : Option Mem := do
  let s ← expand t fmt.toList
  if s.length < max then out.store 0 (s ++ [0]) else out.store 0 (junk.take max)

/-- time_rfc1123.c 11-24 `time_rfc1123`: the value returned and the array afterwards. -/
def rfc1123 (gmtime : Int → Option Tm) (junk : List Byte) (time : Int) (out : Option Mem) (size : Nat) :
    Option (Int × Option Mem) :=
  match out with
  | none => some (-1, none)
  | some m =>
    if size < 30 then some (-1, some m)
    else do
      let t ← gmtime time
      let m ← strftime junk m 30 "---, %d --- %Y %H:%M:%S GMT" t
      let d ← dayNames[t.wday]?
      let m ← m.store 0 (lit d)
      let n ← monthNames[t.mon]?
      let m ← m.store 8 (lit n)
      return (0, some m)

/-- time_rfc2822.c 4-16 `time_strf`. -/
def timeStrf (gmtime : Int → Option Tm) (junk : List Byte) (time : Int) (m : Mem) (size : Nat) (fmt : String) : Option Mem := do
  let m ← m.store 0 [0]
  let t ← gmtime time
  strftime junk m size fmt t

/-- time_rfc2822.c 18-26 `time_rfc2822`. -/
def rfc2822 (gmtime : Int → Option Tm) (junk : List Byte) (time : Int) (out : Option Mem) (size : Nat) :
    Option (Int × Option Mem) :=
  match out with
  | none => some (-1, none)
  | some m =>
    if size < 32 then some (-1, some m)
    else do
      let m ← timeStrf gmtime junk time m size "%a, %d %b %Y %T %z"
      return (0, some m)

/-- time_rfc2822.c 28-36 `time_rfc2822_utc`. -/
def rfc2822utc (gmtime : Int → Option Tm) (junk : List Byte) (time : Int) (out : Option Mem) (size : Nat) :
    Option (Int × Option Mem) :=
  match out with
  | none => some (-1, none)
  | some m =>
    if size < 30 then some (-1, some m)
    else do
      let m ← timeStrf gmtime junk time m size "%a, %d %b %Y %T UTC"
      return (0, some m)

end Verif.TimeRfc
